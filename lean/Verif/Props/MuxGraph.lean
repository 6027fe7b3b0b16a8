import Verif.Proof.FromBdd
import Verif.Proof.Remap
/-! C11 (decision diagrams to circuits, input remapping) and C12 (optimiser). -/
namespace Spf.Props
open Spf.Mux Spf.Spec Graph

/-! ### C11 -/

/-- **C11.** Converting a non-empty list of reduced diagrams over `nv` variables never panics and yields a
well-formed circuit with inputs `0 … nv-1` whose output `i` is the function of diagram `i`. -/
theorem C11_from_bdds {nv : Nat} {bdds : List (List BddNode)} (hv : ∀ b ∈ bdds, ValidBdd nv b) (hne : bdds ≠ []) :
    ∃ c, fromBdds bdds = some c ∧ WF c.graph ∧ Computes c nv (bdds.map bddFn) ∧ SelectorsOnly c.graph := fromBdds_spec hv hne

/-- The diagrams of `x0 xor x1`, of `true` and of `false`. -/
def exBdds : List (List BddNode) :=
  [[⟨2, 0, 0⟩, ⟨2, 1, 1⟩, ⟨1, 1, 0⟩, ⟨1, 0, 1⟩, ⟨0, 3, 2⟩], [⟨2, 0, 0⟩, ⟨2, 1, 1⟩], [⟨2, 0, 0⟩]]

theorem exBdds_valid : ∀ b ∈ exBdds, ValidBdd 2 b := by
  have inner : ∀ (l : List BddNode), (∀ p ∈ l.zipIdx, 2 ≤ p.2 → p.1.low < p.2 ∧ p.1.high < p.2 ∧ p.1.low ≠ p.1.high ∧ p.1.var < 2) →
      ∀ (j : Nat) r, 2 ≤ j → l[j]? = some r → r.low < j ∧ r.high < j ∧ r.low ≠ r.high ∧ r.var < 2 := by
    intro l h j r hj hr
    exact h (r, j) (by rw [List.mem_zipIdx_iff_getElem?]; exact hr) hj
  intro b hb
  simp only [exBdds, List.mem_cons, List.not_mem_nil, or_false] at hb
  rcases hb with rfl | rfl | rfl
  · exact ⟨by decide, by decide, inner _ (by decide)⟩
  · exact ⟨by decide, by decide, inner _ (by decide)⟩
  · exact ⟨by decide, by decide, inner _ (by decide)⟩

example : ∃ c, fromBdds exBdds = some c ∧ WF c.graph ∧ Computes c 2 (exBdds.map bddFn) ∧ SelectorsOnly c.graph :=
  C11_from_bdds exBdds_valid (by decide)
example : (exBdds.map fun b => bddFn b (fun i => i = 1)) = [true, true, false] := by
  have h0 : ∀ l e, bddVal l e 0 = false := fun l e => by rw [bddVal]; rfl
  have h1 : ∀ l e, bddVal l e 1 = true := fun l e => by rw [bddVal]; rfl
  have h2 : ∀ l e j r, 2 ≤ j → l[j]? = some r → r.low < j ∧ r.high < j →
      bddVal l e j = bif e r.var then bddVal l e r.high else bddVal l e r.low := by
    intro l e j r h1 h2 h3
    rw [bddVal, if_neg (by omega), if_neg (by omega)]; simp only [h2]; rw [dif_pos h3]
  simp only [exBdds, bddFn, List.map_cons, List.map_nil, List.length_cons, List.length_nil, Nat.reduceAdd, Nat.reduceSub]
  rw [h2 _ _ 4 ⟨0, 3, 2⟩ (by decide) rfl (by decide)]
  simp only [Nat.reduceEqDiff, decide_false, cond_false]
  rw [h2 _ _ 3 ⟨1, 0, 1⟩ (by decide) rfl (by decide), h0, h1, h0, h1]
  rfl

/-- **C11 (inputs).** Remapping the `n` inputs of a circuit onto `count` inputs with an acceptable table `enc` never
panics, keeps the circuit well formed, and feeds old input `k` with new input `enc[k]`. -/
theorem C11_remap_inputs {c : MuxCircuit} {n count : Nat} {enc : List Nat} {outs} (hw : WF c.graph) (h : Computes c n outs)
    (hlen : enc.length = n) (hlt : ∀ i ∈ enc, i < count) (hsurj : ∀ i, i < count → i ∈ enc) :
    ∃ c', remapInputs c count enc = some c' ∧ WF c'.graph ∧
      Computes c' count (outs.map fun f w => f (fun k => w (enc.getD k 0))) := remap_computes hw h hlen hlt hsurj

example : ∃ c c', fromBdds exBdds = some c ∧ remapInputs c 1 [0, 0] = some c' ∧
    Computes c' 1 ((exBdds.map bddFn).map fun f w => f (fun k => w ([0, 0].getD k 0))) := by
  obtain ⟨c, h1, h2, h3, _⟩ := C11_from_bdds exBdds_valid (by decide)
  obtain ⟨c', h4, _, h5⟩ := C11_remap_inputs (count := 1) (enc := [0, 0]) h2 h3 rfl (by simp)
    (by intro i hi; have : i = 0 := by omega
        simp [this])
  exact ⟨c, c', h1, h4, h5⟩

/-! ### C12 -/

/-- **C12.** If the optimiser returns, the optimised circuit has the same inputs and every output is the same function
of the inputs. -/
theorem C12_optimize {c c' : MuxCircuit} {nIn outs} (hw : WF c.graph) (h : Computes c nIn outs)
    (ho : optimize c = some c') : Complete c'.graph ∧ Computes c' nIn outs := optimize_computes hw h ho

/-- **C12 (per node).** Elimination keeps every node that is not a multiplexer, and does not change the value of any
node it keeps. -/
theorem C12_cse {g g' : MGraph} (h : WF g) (hc : cse g = some g') :
    Complete g' ∧ (∀ n, g'.weight n = g.weight n ∨ g.weight n = some .mux ∧ g'.weight n = none) ∧
    ∀ n, (g'.weight n).isSome → ∀ env b, Eval g' env n b ↔ Eval g env n b := cse_sound h hc

/-- **C12 (compaction).** Renumbering keeps the circuit complete (and well formed), and the value of every node. -/
theorem C12_compact {g : MGraph} (h : Complete g) : Complete (compactGraph g) ∧ (WF g → WF (compactGraph g)) ∧
    ∀ n, (g.weight n).isSome → ∀ env b, Eval (compactGraph g) env (compactIndex g.nodes n) b ↔ Eval g env n b :=
  ⟨compact_complete h, compact_wf, fun _ hn _ _ => compact_eval h.live hn⟩

/-- **C12 (termination).** The traversal empties its stack within as many iterations as there are nodes. -/
theorem C12_terminates {g : MGraph} (h : WF g) {st'} (hi : cseLoop g.nodes.length (initState g) = some st') :
    st'.stack = [] := cse_stops h hi

/-- A checkable certificate of well-formedness, used for the examples. -/
def wfCheck (g : MGraph) (rank : Nat → Nat) : Bool :=
  (g.edges.all fun e => (g.weight e.1).isSome && (g.weight e.2.1).isSome && decide (rank e.1 < rank e.2.1) &&
    (match g.weight e.1 with | some (.output _) => false | _ => true) &&
    (match g.weight e.2.1, e.2.2 with
      | some .mux, .output => false | some .mux, _ => true | some (.output _), .output => true | none, _ => true | _, _ => false)) &&
  (List.range g.nodes.length).all fun n =>
    match g.weight n with
    | some .mux => decide ((g.inEdges n).Perm [(operand g n .select, n, .select), (operand g n .low, n, .low), (operand g n .high, n, .high)])
    | some (.output _) => decide (g.inEdges n = [(operand g n .output, n, .output)])
    | _ => true

theorem wf_of_check {g : MGraph} {rank} (h : wfCheck g rank = true) : WF g := by
  unfold wfCheck at h
  rw [Bool.and_eq_true, List.all_eq_true, List.all_eq_true] at h
  obtain ⟨h1, h2⟩ := h
  simp only [Bool.and_eq_true, decide_eq_true_eq] at h1
  have hm : ∀ n, g.weight n = some .mux → (g.inEdges n).Perm [(operand g n .select, n, .select), (operand g n .low, n, .low), (operand g n .high, n, .high)] := by
    intro n hn
    have := h2 n (List.mem_range.2 (lt_of_weight (by rw [hn]; rfl)))
    rw [hn] at this
    simpa using this
  have ho : ∀ n i, g.weight n = some (.output i) → g.inEdges n = [(operand g n .output, n, .output)] := by
    intro n i hn
    have := h2 n (List.mem_range.2 (lt_of_weight (by rw [hn]; rfl)))
    rw [hn] at this
    simpa using this
  refine ⟨⟨?_, ?_, ?_, ?_, ?_, ⟨rank, ?_⟩⟩, fun n hn => ⟨_, _, _, hm n hn⟩, fun n i hn => ⟨_, ho n i hn⟩⟩
  · intro e he; exact ⟨(h1 e he).1.1.1.1, (h1 e he).1.1.1.2⟩
  · intro e he op hop
    have := (h1 e he).2
    rw [hop] at this
    generalize e.2.2 = k at this
    cases op <;> cases k <;> simp only [KindOK] <;> cases this
  · intro n hn
    have hp := hm n hn
    exact ⟨⟨operand g n .select, (mem_inEdges (n := n)).1 (hp.mem_iff.2 List.mem_cons_self)⟩,
      ⟨operand g n .low, (mem_inEdges (n := n)).1 (hp.mem_iff.2 (by simp))⟩,
      ⟨operand g n .high, (mem_inEdges (n := n)).1 (hp.mem_iff.2 (by simp))⟩⟩
  · intro n i hn
    have hp := ho n i hn
    exact ⟨_, (mem_inEdges (n := n)).1 (by rw [hp]; exact List.mem_singleton.2 rfl)⟩
  · intro e he i hi
    have := (h1 e he).1.2
    rw [hi] at this
    cases this
  · intro e he; exact (h1 e he).1.1.2

/-- operands of multiplexer `n` -/
def exMux (s l h n : Nat) : List (Nat × Nat × MuxEdge) := [(s, n, .select), (l, n, .low), (h, n, .high)]

/-- nodes of the examples: `0 = zero`, `1 = one`, `2, 3` variables, `4 … 7` multiplexers, `8, 9, 10` outputs -/
def exGraph (es : List (Nat × Nat × MuxEdge)) : MGraph :=
  ⟨[.zero, .one, .variable 0, .variable 1, .mux, .mux, .mux, .mux, .output 0, .output 1, .output 2].map some,
    (es ++ [(6, 8, MuxEdge.output), (7, 9, .output), (4, 10, .output)]).reverse⟩

/-- `4 ≡ 5`, and then `6 ≡ 7` -/
def exGood : MGraph := exGraph (exMux 2 0 1 4 ++ exMux 2 0 1 5 ++ exMux 3 0 5 6 ++ exMux 3 0 4 7)

theorem exGood_wf : WF exGood := wf_of_check (rank := id) (by decide)

/-- The optimiser merges both pairs here. -/
example : ∃ g', cse exGood = some g' ∧ g'.indices.length = 9 ∧ Complete g' ∧
    ∀ n, (g'.weight n).isSome → ∀ env b, Eval g' env n b ↔ Eval exGood env n b := by
  have h : (cse exGood).isSome := by decide
  obtain ⟨g', hg⟩ := Option.isSome_iff_exists.1 h
  obtain ⟨h1, _, h3⟩ := C12_cse exGood_wf hg
  refine ⟨g', hg, ?_, h1, h3⟩
  have : (cse exGood).map (fun g => g.indices.length) = some 9 := by decide
  rw [hg] at this
  exact Option.some.inj this

/-- `4 ≡ 5` and `6 ≡ 7`, all selected by the same variable, where 6 and 7 are children of 5 -/
def exPanic : MGraph := exGraph (exMux 2 0 1 5 ++ exMux 2 0 1 4 ++ exMux 2 0 5 7 ++ exMux 2 0 5 6)

/-- **C12 is not unconditional**: there is a well-formed circuit on which the optimiser panics (it moves an edge onto a
node that the same batch of transforms has already removed). -/
theorem C12_panic_violated : ∃ g, WF g ∧ cse g = none := ⟨exPanic, wf_of_check (rank := id) (by decide), by decide⟩

/-- `4 ≡ 5` where the select line is also the low operand -/
def exDup : MGraph := exGraph (exMux 2 2 1 4 ++ exMux 2 2 1 5 ++ exMux 3 0 4 6 ++ exMux 3 1 4 7)

/-- the removed node is met twice in the list of children, so the edges of node 4 are moved twice: one step of the
optimiser turns a well-formed circuit into one in which a multiplexer has two identical low edges, which the circuit
evaluator (and the next visit of the node) rejects. -/
theorem C12_duplicate_edges_violated : ∃ g, WF g ∧ cse g = none ∧
    ∃ ts g', cseChildren g (g.succs 2) [] = some ts ∧ applyTransforms ts g = some g' ∧
      ∃ n, g'.weight n = some .mux ∧ (g'.inEdges n).length = 4 := by
  refine ⟨exDup, wf_of_check (rank := id) (by decide), by decide, ?_⟩
  have h : ((cseChildren exDup (exDup.succs 2) []).bind fun ts => applyTransforms ts exDup).isSome := by decide
  obtain ⟨g', hg⟩ := Option.isSome_iff_exists.1 h
  have hn : (((cseChildren exDup (exDup.succs 2) []).bind fun ts => applyTransforms ts exDup).map fun g' =>
      decide (g'.weight 6 = some .mux ∧ (g'.inEdges 6).length = 4)) = some true := by decide
  rw [hg] at hn
  simp only [Option.map_some, Option.some.injEq, decide_eq_true_eq] at hn
  rw [Option.bind_eq_some_iff] at hg
  obtain ⟨ts, h1, h2⟩ := hg
  exact ⟨ts, g', h1, h2, 6, hn⟩

end Spf.Props
