import Verif.Proof.Traverse
import Verif.Props.MuxGraph
import Mathlib.Tactic.IntervalCases
/-! C101 (graph traversal) and C102 (the plaintext circuit evaluator). -/
namespace Spf.Props
open Spf.Trav Spf.Spec Spf.Mux Graph
variable {N E : Type}

/-! ### C101 -/

/-- **C101.** For every graph there is an order of the nodes that are not on a cycle and not behind one, each of them
once and after all its predecessors, such that traversing the graph with any callback, from any state of the callback, is
running the callback over that order, up to its first error. -/
theorem C101_traverse {fwd : Bool} {g : Graph N E} (hl : EdgesLive g) :
    ∃ order : List Nat, order.Nodup ∧ InOrder fwd g order ∧
      (∀ n, n ∈ order ↔ (g.weight n).isSome ∧ Grounded fwd g n) ∧
      ∀ (σ ε : Type) (f : σ → Nat → Except ε σ) (s : σ), traverse fwd g f s = order.foldlM f s := traverse_spec hl

/-- **C101 (acyclic graphs).** In a graph without cycles the callback is run once on every node, after the nodes it
depends on, in both directions. -/
theorem C101_acyclic {fwd : Bool} {g : Graph N E} (hl : EdgesLive g) (ha : Acyclic g) :
    ∃ order : List Nat, order.Perm g.indices ∧ InOrder fwd g order ∧
      ∀ (σ ε : Type) (f : σ → Nat → Except ε σ) (s : σ), traverse fwd g f s = order.foldlM f s := by
  obtain ⟨order, h1, h2, h3, h4⟩ := traverse_spec (fwd := fwd) hl
  refine ⟨order, (List.perm_ext_iff_of_nodup h1 (indices_nodup g)).2 fun n => ?_, h2, h4⟩
  rw [h3, mem_indices]
  exact ⟨And.left, fun h => ⟨h, grounded_of_acyclic ha n⟩⟩

/-- **C101 (termination).** The loop empties its stack within as many iterations as there are node slots, whatever the
callback does. -/
theorem C101_terminates {σ ε : Type} {fwd : Bool} {g : Graph N E} (hl : EdgesLive g) (f : σ → Nat → Except ε σ) (s s' : σ) (fin)
    (h : loop fwd g f g.nodes.length (init fwd g) s = .ok (fin, s')) : fin.stack = [] := by
  obtain ⟨a, b⟩ := init_inv fwd g
  obtain ⟨more, fin', h1, _, _, _, h5⟩ := loop_spec hl g.nodes.length _ a b (by omega)
  rw [h5] at h
  cases hm : more.foldlM f s with
  | error e => rw [hm] at h; cases h
  | ok s1 => rw [hm] at h; cases h; exact h1

/-- **C101 (cycles are skipped silently).** If the callback never fails, traversing a graph with a cycle succeeds too,
although the nodes on the cycle are never visited. -/
theorem C101_cycle_skipped {fwd : Bool} {g : Graph N E} (hl : EdgesLive g) {n : Nat} (hc : Relation.TransGen (Before fwd g) n n) :
    ∃ seen : List Nat, traverse fwd g (ε := Empty) (fun (acc : List Nat) n => .ok (acc ++ [n])) [] = .ok seen ∧ n ∉ seen := by
  obtain ⟨order, h1, h2, h3, h4⟩ := traverse_spec (fwd := fwd) hl
  refine ⟨order, ?_, fun hn => ?_⟩
  · rw [h4]
    have : ∀ (l acc : List Nat), l.foldlM (m := Except Empty) (fun (acc : List Nat) n => .ok (acc ++ [n])) acc = .ok (acc ++ l) := by
      intro l
      induction l with
      | nil => intro acc; simp; rfl
      | cons a l ih => intro acc; rw [List.foldlM_cons]; exact (ih _).trans (by simp)
    simpa using this order []
  · have hacc : Acc (Before fwd g) n := ((h3 n).1 hn).2
    have key : ∀ x, Acc (Relation.TransGen (Before fwd g)) x → ¬ Relation.TransGen (Before fwd g) x x := by
      intro x hx
      induction hx with
      | intro x _ ih => intro hc; exact ih x hc hc
    exact key n hacc.transGen hc

/-- a diamond with a double edge and a removed node -/
def travDiamond : Graph Unit Unit :=
  ⟨[some (), none, some (), some (), some ()], [(2, 4, ()), (3, 4, ()), (0, 2, ()), (0, 2, ()), (0, 3, ())]⟩

theorem travDiamond_live : EdgesLive travDiamond := by
  have : ∀ e ∈ travDiamond.edges, (travDiamond.weight e.1).isSome ∧ (travDiamond.weight e.2.1).isSome := by decide
  exact this

theorem travDiamond_acyclic : Acyclic travDiamond := by
  have : ∀ e ∈ travDiamond.edges, e.1 < e.2.1 := by decide
  exact ⟨id, this⟩

example : ∃ order : List Nat, order.Perm [0, 2, 3, 4] ∧ InOrder true travDiamond order ∧
    ∀ (σ ε : Type) (f : σ → Nat → Except ε σ) (s : σ), traverse true travDiamond f s = order.foldlM f s :=
  C101_acyclic travDiamond_live travDiamond_acyclic

/-- The order, forwards and backwards, and an early stop. -/
example : traverse true travDiamond (ε := Empty) (fun (acc : List Nat) n => .ok (acc ++ [n])) [] = .ok [0, 3, 2, 4] ∧
    traverse false travDiamond (ε := Empty) (fun (acc : List Nat) n => .ok (acc ++ [n])) [] = .ok [4, 3, 2, 0] ∧
    traverse true travDiamond (fun (acc : List Nat) n => if n = 2 then .error acc else .ok (acc ++ [n])) [] = .error [0, 3] :=
  ⟨rfl, rfl, rfl⟩

/-- a source, a cycle behind it, and a node behind the cycle -/
def travCycle : Graph Unit Unit := ⟨[some (), some (), some (), some ()], [(2, 3, ()), (2, 1, ()), (1, 2, ()), (0, 1, ())]⟩

example : traverse true travCycle (ε := Empty) (fun (acc : List Nat) n => .ok (acc ++ [n])) [] = .ok [0] := rfl

example : ∃ seen : List Nat, traverse true travCycle (ε := Empty) (fun (acc : List Nat) n => .ok (acc ++ [n])) [] = .ok seen ∧ 1 ∉ seen :=
  C101_cycle_skipped (by
      have : ∀ e ∈ travCycle.edges, (travCycle.weight e.1).isSome ∧ (travCycle.weight e.2.1).isSome := by decide
      exact this)
    (.tail (b := 2) (.single ⟨(), by decide⟩) ⟨(), by decide⟩)

/-! ### C102 -/

/-- **C102.** On a well-formed circuit without removed nodes whose outputs are numbered in node order, the evaluator
returns, for all inputs, the value of every output function, in order. Partial: see the two violations below. -/
theorem C102_test_mux_circuit_partial {c : MuxCircuit} {nIn outs} (hw : WF c.graph) (h : Computes c nIn outs)
    (hh : NoHoles c.graph) (ho : OutputsInOrder c.graph outs.length) {inputs : List Bool} (hlen : inputs.length = nIn) :
    testMuxCircuit c inputs = some (outs.map fun f => f fun i => inputs.getD i false) := test_ok hw h hh ho hlen

/-- **C102 (wrong number of inputs).** The evaluator refuses any other number of inputs. -/
theorem C102_arity {c : MuxCircuit} {nIn outs} (h : Computes c nIn outs) {inputs : List Bool} (hlen : inputs.length ≠ nIn) :
    testMuxCircuit c inputs = none := by
  unfold testMuxCircuit
  rw [var_count h, if_pos hlen]

/-- **C102 (circuits from decision diagrams).** Evaluating the circuit made of a list of diagrams gives the value of each
diagram. -/
theorem C102_from_bdds {nv : Nat} {bdds : List (List BddNode)} (hv : ∀ b ∈ bdds, ValidBdd nv b) (hne : bdds ≠ [])
    {inputs : List Bool} (hlen : inputs.length = nv) :
    ∃ c, fromBdds bdds = some c ∧ testMuxCircuit c inputs = some (bdds.map fun b => bddFn b fun i => inputs.getD i false) := by
  obtain ⟨c, h1, h2, h3, _⟩ := C11_from_bdds hv hne
  obtain ⟨h4, h5⟩ := fromBdds_outs h1
  refine ⟨c, h1, ?_⟩
  rw [test_ok h2 h3 h5 (by simpa using h4) hlen]
  simp

/-- **C102 (optimised circuits).** When common subexpression elimination leaves every gate with its three operands, the
optimised circuit evaluates to the same outputs as the circuit it came from. -/
theorem C102_optimized_partial {c c' : MuxCircuit} {nIn outs} (hw : WF c.graph) (h : Computes c nIn outs)
    (ho : OutputsInOrder c.graph outs.length) (hopt : optimize c = some c') (hw' : WF c'.graph) {inputs : List Bool}
    (hlen : inputs.length = nIn) :
    testMuxCircuit c' inputs = some (outs.map fun f => f fun i => inputs.getD i false) := by
  obtain ⟨a, b⟩ := optimize_outs hw hopt ho
  exact test_ok hw' (C12_optimize hw h hopt).2 b a hlen

example (a b : Bool) : ∃ c, fromBdds exBdds = some c ∧
    testMuxCircuit c [a, b] = some (exBdds.map fun d => bddFn d fun i => [a, b].getD i false) :=
  C102_from_bdds exBdds_valid (by decide) rfl

example : (fromBdds exBdds).bind (fun c => testMuxCircuit c [true, false]) = some [true, true, false] ∧
    (fromBdds exBdds).bind (fun c => testMuxCircuit c [true, true]) = some [false, true, false] ∧
    (fromBdds exBdds).bind (fun c => testMuxCircuit c [true]) = none := by decide +kernel

/-- `x0 ? 1 : 0`, with the constant `one` in slot 2 and slot 1 vacated -/
def travHole : MuxCircuit :=
  ⟨⟨[some .zero, none, some .one, some (.variable 0), some .mux, some (.output 0)],
    [(4, 5, .output), (3, 4, .select), (0, 4, .low), (2, 4, .high)]⟩, [3]⟩

theorem travHole_wf : WF travHole.graph := wf_of_check (rank := id) (by decide)

/-- **C102 does not hold on a circuit with a removed node**: the table of values has one entry per node but is indexed
by node number, so the evaluator panics although the circuit is well formed (and evaluates to its input). -/
theorem C102_holes_violated : ∃ c : MuxCircuit, WF c.graph ∧ Computes c 1 [fun env => env 0] ∧
    OutputsInOrder c.graph 1 ∧ ∀ b, testMuxCircuit c [b] = none := by
  refine ⟨travHole, travHole_wf, ?_, rfl, by intro b; cases b <;> decide +kernel⟩
  have hlt : ∀ n op, travHole.graph.weight n = some op → n < 6 := by
    intro n op h
    by_contra hn
    have : travHole.graph.weight n = none := by
      simp [weight, List.getD, travHole, show (6 : Nat) ≤ n by omega]
    rw [this] at h; cases h
  have w : ∀ n op, travHole.graph.weight n = some op → (n, op) ∈
      [(0, MuxOp.zero), (2, .one), (3, .variable 0), (4, .mux), (5, .output 0)] := by
    intro n op h
    have := hlt n op h
    interval_cases n <;> simp [weight, travHole] at h <;> subst h <;> simp
  refine ⟨rfl, ?_, ?_, ?_, ?_⟩
  · intro n i
    constructor
    · intro h
      have := w _ _ h
      simp at this
      obtain ⟨rfl, rfl⟩ := this
      exact ⟨by omega, rfl⟩
    · rintro ⟨h1, h2⟩
      obtain rfl : i = 0 := by omega
      simp [travHole] at h2
      subst h2; rfl
  · intro n n' i h h'
    have := w _ _ h
    have h2 := w _ _ h'
    simp at this h2
    omega
  · intro i
    constructor
    · rintro ⟨n, h⟩
      have := w _ _ h
      simp at this
      simp [this]
    · intro h
      obtain rfl : i = 0 := by simpa using h
      exact ⟨5, rfl⟩
  · intro n i f h hf env b
    have := w _ _ h
    simp at this
    obtain ⟨rfl, rfl⟩ := this
    simp at hf
    subst hf
    have e : Eval travHole.graph env 5 (bif env 0 then true else false) :=
      .output (i := 0) (s := 4) rfl (by decide) (.mux (s := 3) (l := 0) (h := 2) rfl (by decide) (by decide) (by decide)
        (.var rfl) (.zero rfl) (.one rfl))
    have e' : Eval travHole.graph env 5 (env 0) := by cases h : env 0 <;> rw [h] at e <;> exact e
    constructor
    · intro hb
      obtain ⟨v, w', hE, hN⟩ := exists_val boolAlg env travHole_wf
      exact (eval_sound hE hN e').symm.trans (eval_sound hE hN hb)
    · rintro rfl; exact e'

/-- `[x0, 1]`, with output 1 in an earlier slot than output 0 -/
def travSwapped : MuxCircuit :=
  ⟨⟨[some .one, some (.variable 0), some (.output 1), some .zero, some .mux, some (.output 0)],
    [(4, 5, .output), (0, 2, .output), (1, 4, .select), (3, 4, .low), (0, 4, .high)]⟩, [1]⟩

/-- **C102 does not return the outputs by their numbers**: the outputs are sorted by node first, so a circuit whose
output 1 was created before output 0 gets its results in the wrong places. -/
theorem C102_order_violated : ∃ c : MuxCircuit, WF c.graph ∧ NoHoles c.graph ∧
    (∀ n, c.graph.weight n = some (.output 0) → Eval c.graph (fun _ => false) n false) ∧
    (∀ n, c.graph.weight n = some (.output 1) → Eval c.graph (fun _ => false) n true) ∧
    testMuxCircuit c [false] = some [true, false] := by
  have w : ∀ n i, travSwapped.graph.weight n = some (.output i) → (n, i) = (2, 1) ∨ (n, i) = (5, 0) := by
    intro n i h
    have hlt : n < 6 := by
      by_contra hn
      have : travSwapped.graph.weight n = none := by
        simp [weight, List.getD, travSwapped, show (6 : Nat) ≤ n by omega]
      rw [this] at h; cases h
    interval_cases n <;> simp [weight, travSwapped] at h <;> subst h <;> simp
  refine ⟨travSwapped, wf_of_check (rank := fun n => [0, 0, 1, 0, 1, 2].getD n 0) (by decide), ?_, ?_, ?_, by decide +kernel⟩
  · apply noHoles_of_solid
    intro x hx
    revert x
    decide
  · intro n h
    rcases w n 0 h with h | h <;> cases h
    exact .output (i := 0) (s := 4) rfl (by decide) (.mux (s := 1) (l := 3) (h := 0) rfl (by decide) (by decide) (by decide)
        (.var rfl) (.zero rfl) (.one rfl))
  · intro n h
    rcases w n 1 h with h | h <;> cases h
    exact .output (i := 1) (s := 0) rfl (by decide) (.one rfl)

end Spf.Props
