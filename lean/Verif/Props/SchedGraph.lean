import Verif.Props.Sched
import Verif.Proof.SchedEval
import Mathlib.Tactic.IntervalCases
/-! C16-C19 for circuits submitted through `spawn_graph`. -/
namespace Spf.Props
open Spf.Sched Spf.Fhe Spf.Spec Graph

variable {gs : List (FGraph × List Nat)} {W F deg : Nat} {cells : CtType × Nat → Fhe.Val}

/-- `spawn_graph` never panics on a graph visited in topological order, and dispatches its nodes in that order. -/
theorem C16_spawn (h : ∀ p ∈ gs, TopoOrder p.1 p.2) : ∃ prog, spawnAll gs 0 0 = some prog ∧ WellFormed prog :=
  ⟨_, spawnAll_eq gs 0 0 h, wellFormed h⟩

theorem lastItem {k : Nat} {g : FGraph} {ord : List Nat} (hk : gs[k]? = some (g, ord)) :
    (allItems gs 0 0)[start gs k + (ord.takeWhile (notRetire g)).length]? =
      some ⟨k, none, [], if ord.all (notRetire g) then none else some .illegalRetire⟩ := by
  refine (allItems_get _ _ _ _ _).2 ⟨k, (g, ord), _, hk, rfl, ?_⟩
  rw [Nat.zero_add, Nat.zero_add]
  exact (circItems_get _ _ _ _).2 (Or.inr ⟨rfl, rfl⟩)

/-- C16: when the callback of circuit `k` reports success, each of its output cells holds the value of the output node,
whatever the threads, the budget and the schedule. -/
theorem C16_circuits (h : ∀ p ∈ gs, TopoOrder p.1 p.2) (ha : Apart gs) {prog : List (Item FheOp RtErr FheEdge)}
    (hs : spawnAll gs 0 0 = some prog) {s : State Fhe.Val RtErr (CtType × Nat) FheEdge} (hr : Reached (fheExec deg) W F prog cells s)
    {k : Nat} {g : FGraph} {ord : List Nat} (hk : gs[k]? = some (g, ord)) (hf : none ∈ s.fired k) {n : Nat} {t : CtType} {c : Nat}
    (hn : g.weight n = some (.output t c)) : ∃ v, FEval deg (fun t c => cells (t, c)) g n v ∧ s.cells (t, c) = v := by
  rw [spawnAll_eq gs 0 0 h] at hs
  cases hs
  have C := cellsOf deg h ha
  have ht := h _ (List.mem_of_getElem? hk)
  -- the circuit is clean, so it contains no `Retire`
  have hin : ∃ (i : Nat) (it : Item FheOp RtErr FheEdge), (allItems gs 0 0)[i]? = some it ∧ it.circ = k := by
    exact ⟨_, _, lastItem hk, rfl⟩
  have hclean := (C19_errors (wellFormed h) C hr k none hf hin).2.1 rfl
  have hall : ord.all (notRetire g) = true := by
    have := (hclean _ _ (lastItem hk) rfl).1
    cases hb : ord.all (notRetire g) with
    | true => rfl
    | false => simp [hb] at this
  have htw : ord.takeWhile (notRetire g) = ord := takeWhile_all (List.all_eq_true.1 hall)
  have hmem : n ∈ ord := (ht.mem n).2 (by dsimp only; rw [hn]; rfl)
  obtain ⟨j, hj, hjn⟩ := List.getElem_of_mem hmem
  have hjn : ord[j]? = some n := by rw [List.getElem?_eq_getElem hj, hjn]
  have hlt : j < (ord.takeWhile (notRetire g)).length := by rw [htw]; exact hj
  obtain ⟨_, o, w, h1, _, h3⟩ := C16_sequential (wellFormed h) C hr k hf _ _ (nodeItem_get hk hjn hlt) rfl
  rcases node_ok h deg cells hk j n hjn hlt o w h1 with ⟨q, _⟩ | ⟨v, q1, _, ⟨t', c', q2, _, q3⟩ | ⟨q2, _⟩⟩
  · dsimp only at q; rw [hn] at q; cases q
  · dsimp only at q2; rw [hn] at q2; cases q2
    exact ⟨v, q1, h3 _ _ q3⟩
  · exact absurd hn (q2 t c)

/-- C17 for circuits: the callback of each circuit fires at most once; when it has fired, nothing of the circuit is still
running; and at the end it has fired. -/
theorem C17_circuits (h : ∀ p ∈ gs, TopoOrder p.1 p.2) (ha : Apart gs) {prog : List (Item FheOp RtErr FheEdge)}
    (hs : spawnAll gs 0 0 = some prog) {s : State Fhe.Val RtErr (CtType × Nat) FheEdge} (hr : Reached (fheExec deg) W F prog cells s)
    {k : Nat} (hk : k < gs.length) :
    (s.fired k).length ≤ 1 ∧ (s.fired k ≠ [] → ∀ t ∈ s.running, ∀ it, prog[t]? = some it → it.circ ≠ k) ∧
    (Finished prog s → (s.fired k).length = 1) := by
  rw [spawnAll_eq gs 0 0 h] at hs
  cases hs
  have C := cellsOf deg h ha
  have hgk : gs[k]? = some gs[k] := List.getElem?_eq_getElem hk
  have hin : ∃ (i : Nat) (it : Item FheOp RtErr FheEdge), (allItems gs 0 0)[i]? = some it ∧ it.circ = k := by
    exact ⟨_, _, lastItem (g := gs[k].1) (ord := gs[k].2) hgk, rfl⟩
  obtain ⟨h1, h2, h3, _⟩ := C17_callback (wellFormed h) C hr k hin
  refine ⟨h1, fun hne t ht it hp hc => ?_, h3⟩
  have hd := h2 hne t it hp hc
  have := ((hr.inv (wellFormed h) C).a.run t).1 ht
  rw [hd] at this; cases this

/-- C18 for circuits: with a thread and a token, every schedule can be completed, and none is infinite. -/
theorem C18_circuits (h : ∀ p ∈ gs, TopoOrder p.1 p.2) (ha : Apart gs) (hW : 0 < W) (hF : 0 < F)
    {prog : List (Item FheOp RtErr FheEdge)} (hs : spawnAll gs 0 0 = some prog) :
    (∀ s : State Fhe.Val RtErr (CtType × Nat) FheEdge, Reached (fheExec deg) W F prog cells s →
      ∃ sched s', run (fheExec deg) W F prog sched s = some s' ∧ Finished prog s') ∧
    ∃ bound, ∀ sched s, run (fheExec deg) W F prog sched (init F cells) = some s → sched.length ≤ bound := by
  rw [spawnAll_eq gs 0 0 h] at hs
  cases hs
  exact ⟨fun s hr => C18_completes (wellFormed h) (cellsOf deg h ha) hW hF hr,
    _, fun sched s hr => C18_terminates (wellFormed h) (cellsOf deg h ha) sched hr⟩

/-- C19 for circuits: at the end, the callback of circuit `k` has reported success if all nodes of the circuit have a
value and nothing uses an output node, and an error otherwise. -/
theorem C19_circuits (h : ∀ p ∈ gs, TopoOrder p.1 p.2) (ha : Apart gs) {prog : List (Item FheOp RtErr FheEdge)}
    (hs : spawnAll gs 0 0 = some prog) {s : State Fhe.Val RtErr (CtType × Nat) FheEdge} (hr : Reached (fheExec deg) W F prog cells s)
    (hfin : Finished prog s) {k : Nat} {g : FGraph} {ord : List Nat} (hk : gs[k]? = some (g, ord)) :
    (Evaluates deg cells g → s.fired k = [none]) ∧ (¬Evaluates deg cells g → ∃ e, s.fired k = [some e]) := by
  rw [spawnAll_eq gs 0 0 h] at hs
  cases hs
  have C := cellsOf deg h ha
  have ht := h _ (List.mem_of_getElem? hk)
  have hlast := lastItem hk
  have hin : ∃ (i : Nat) (it : Item FheOp RtErr FheEdge), (allItems gs 0 0)[i]? = some it ∧ it.circ = k := ⟨_, _, hlast, rfl⟩
  constructor
  · intro hev
    have hall : ∀ n ∈ ord, notRetire g n = true := fun n hn => hev.notRetire n ((ht.mem n).1 hn)
    have hcl : Clean (fheExec deg) cells (allItems gs 0 0) k := by
      intro i it hi hc
      obtain ⟨k', p, j, h1, rfl, h3⟩ := (allItems_get _ _ _ _ _).1 hi
      have hkk := circItems_circ h3
      have hkk : k' = k := by omega
      subst hkk
      rw [hk] at h1
      cases h1
      rcases (circItems_get _ _ _ _).1 h3 with ⟨n, hn, hlt, rfl⟩ | ⟨hj, rfl⟩
      · exact ⟨rfl, eval_ok h deg cells hk hev j n hn⟩
      · refine ⟨?_, none, none, ?_⟩
        · dsimp only; rw [if_pos (List.all_eq_true.2 hall)]
        · subst hj
          rw [seqAt _ _ (wellFormed h) hi]; rfl
    obtain ⟨r, hr1⟩ := List.length_eq_one_iff.1 ((C17_callback (wellFormed h) C hr k hin).2.2.1 hfin)
    have := (C19_errors (wellFormed h) C hr k r (by rw [hr1]; simp) hin).2.2 hcl
    rw [hr1, this]
  · intro hne
    refine C19_completes (wellFormed h) C hr hfin k hin fun hcl => hne ?_
    have hall : ord.all (notRetire g) = true := by
      have := (hcl _ _ hlast rfl).1
      cases hb : ord.all (notRetire g) with
      | true => rfl
      | false => simp [hb] at this
    have htw : ord.takeWhile (notRetire g) = ord := takeWhile_all (List.all_eq_true.1 hall)
    have hnode : ∀ n op, g.weight n = some op → ∃ o w, NodeOk deg cells g n o w := by
      intro n op hop
      have hmem : n ∈ ord := (ht.mem n).2 (by dsimp only; rw [hop]; rfl)
      obtain ⟨j, hj, hjn⟩ := List.getElem_of_mem hmem
      have hjn : ord[j]? = some n := by rw [List.getElem?_eq_getElem hj, hjn]
      have hlt : j < (ord.takeWhile (notRetire g)).length := by rw [htw]; exact hj
      obtain ⟨_, o, w, h1⟩ := hcl _ _ (nodeItem_get hk hjn hlt) rfl
      exact ⟨o, w, node_ok h deg cells hk j n hjn hlt o w h1⟩
    constructor
    · intro n op hop
      obtain ⟨o, w, hno⟩ := hnode n op hop
      rcases hno with ⟨q, q1, _⟩ | ⟨v, q, _⟩
      · rw [hop] at q; exact Or.inl ⟨Option.some.inj q, q1⟩
      · exact Or.inr ⟨v, q⟩
    · intro e he
      obtain ⟨op, hop⟩ := Option.isSome_iff_exists.1 (ht.ends e he).2
      obtain ⟨o, w, hno⟩ := hnode _ op hop
      have hei : e ∈ g.inEdges e.2.1 := List.mem_filter.2 ⟨he, by simp⟩
      rcases hno with ⟨_, q, _⟩ | ⟨_, _, q, _⟩
      · rw [q] at hei; cases hei
      · exact q e hei

/-! ### Concrete circuits -/

/-- A decidable form of `TopoOrder`. -/
theorem TopoOrder.of_check {g : FGraph} {ord : List Nat} (h1 : ord.Nodup) (h2 : ∀ n ∈ ord, n < g.nodes.length)
    (h3 : ∀ n, n < g.nodes.length → (n ∈ ord ↔ (g.weight n).isSome = true))
    (h4 : ∀ e ∈ g.edges, ord.idxOf e.1 < ord.idxOf e.2.1 ∧ (g.weight e.1).isSome = true ∧ (g.weight e.2.1).isSome = true) :
    TopoOrder g ord where
  nodup := h1
  mem := by
    intro n
    by_cases hn : n < g.nodes.length
    · exact h3 n hn
    · constructor
      · intro h; exact absurd (h2 n h) hn
      · intro h; rw [weight, List.getD_eq_getElem?_getD, List.getElem?_eq_none (by omega)] at h; cases h
  edge := by
    rintro e he l₁ l₂ rfl
    have h5 := (h4 e he).1
    have hb : e.2.1 ∉ l₁ := by
      intro hh
      exact (List.nodup_append.1 h1).2.2 _ hh e.2.1 (by simp) rfl
    rw [List.idxOf_append_of_notMem hb, List.idxOf_cons_self] at h5
    by_contra hc
    rw [List.idxOf_append_of_notMem hc] at h5
    omega
  ends := fun e he => (h4 e he).2

/-- `1 → not → 2` with an unused constant, visited in an unusual order; and a circuit that adds nothing to nothing. -/
def exCircOk : FGraph := ⟨[some (.input .glwe1 1), some .not, some (.output .glwe1 2), some .oneGgsw1], [(1, 2, .unary), (0, 1, .unary)]⟩
def exCircBad : FGraph := ⟨[some .glweAdd, some (.output .glwe1 5)], [(0, 1, .unary)]⟩

theorem exTopo : ∀ p ∈ [(exCircOk, [0, 3, 1, 2]), (exCircBad, [0, 1])], TopoOrder p.1 p.2 := by
  intro p hp
  simp only [List.mem_cons, List.not_mem_nil, or_false] at hp
  rcases hp with rfl | rfl
  · exact TopoOrder.of_check (by decide) (by decide) (by decide) (by decide)
  · exact TopoOrder.of_check (by decide) (by decide) (by decide) (by decide)

theorem weight_some_lt {N E : Type} {g : Graph N E} {n : Nat} {w : N} (h : g.weight n = some w) : n < g.nodes.length := by
  by_contra hc
  rw [weight, List.getD_eq_getElem?_getD, List.getElem?_eq_none (by omega)] at h; cases h

theorem exApart : Apart [(exCircOk, [0, 3, 1, 2]), (exCircBad, [0, 1])] where
  outputs := by
    intro k k' p p' n n' t c h1 h2 h3 h4
    have a1 := getElem?_lt h1
    have a2 := getElem?_lt h2
    simp only [List.length_cons, List.length_nil] at a1 a2
    interval_cases k <;> interval_cases k' <;> cases h1 <;> cases h2 <;>
      (have b1 := weight_some_lt h3
       have b2 := weight_some_lt h4
       simp only [exCircOk, exCircBad, List.length_cons, List.length_nil] at b1 b2
       interval_cases n <;> interval_cases n' <;> simp [exCircOk, exCircBad, weight] at h3 h4 ⊢)
    all_goals omega
  inputs := by
    intro k k' p p' n n' t c h1 h2 h3 h4
    have a1 := getElem?_lt h1
    have a2 := getElem?_lt h2
    simp only [List.length_cons, List.length_nil] at a1 a2
    interval_cases k <;> interval_cases k' <;> cases h1 <;> cases h2 <;>
      (have b1 := weight_some_lt h3
       have b2 := weight_some_lt h4
       simp only [exCircOk, exCircBad, List.length_cons, List.length_nil] at b1 b2
       interval_cases n <;> interval_cases n' <;> simp [exCircOk, exCircBad, weight] at h3 h4)
    all_goals omega

/-- On any number of threads, with any budget, some schedule runs both circuits to the end. -/
example (W F : Nat) (hW : 0 < W) (hF : 0 < F) (cells : CtType × Nat → Fhe.Val) : ∃ prog s,
    spawnAll [(exCircOk, [0, 3, 1, 2]), (exCircBad, [0, 1])] 0 0 = some prog ∧ Reached (fheExec 1024) W F prog cells s ∧ Finished prog s ∧
    ∃ e, s.fired 1 = [some e] := by
  obtain ⟨prog, hp, _⟩ := C16_spawn exTopo
  obtain ⟨ws, s, h1, h2⟩ := (C18_circuits (deg := 1024) (cells := cells) exTopo exApart hW hF hp).1 (init F cells) ⟨[], rfl⟩
  refine ⟨prog, s, hp, ⟨ws, h1⟩, h2, ?_⟩
  refine (C19_circuits exTopo exApart hp ⟨ws, h1⟩ h2 (k := 1) rfl).2 fun hev => ?_
  rcases hev.node 0 .glweAdd rfl with ⟨h, _⟩ | ⟨v, hv⟩
  · cases h
  · cases hv with
    | op f hw hs hx => cases hw; simp [exCircBad, inEdges, execOp] at hx

/-- Two tasks interleaved on two threads with one token: the whole run of a one-node circuit, computed. -/
example : ((run (fheExec 4) 2 1 [⟨0, some .oneGgsw1, [], none⟩, ⟨0, none, [], none⟩]
    (List.replicate 4 .dispatcher ++ [.dispatcher] ++ List.replicate 6 (.task 0) ++ List.replicate 3 .dispatcher ++ [.task 1, .task 0, .task 1, .task 1, .task 1,
      .task 1, .task 1, .task 1])
    (init 1 fun _ => .lwe0 false)).map fun s => (s.fired 0, s.tokens, s.runs 0, s.running)) = some ([none], 1, 1, []) := by
  decide +kernel

end Spf.Props
