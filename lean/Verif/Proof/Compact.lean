import Verif.Proof.CseTerm
import Mathlib.Data.List.Perm.Basic
import Mathlib.Data.List.Nodup
import Mathlib.Data.List.Sort
/-! Index compaction is an isomorphism and recomputes the inputs in order. -/
namespace Spf.Mux
open Spf.Spec Graph

theorem weight_some {g : MGraph} {n op} : g.weight n = some op ↔ g.nodes[n]? = some (some op) := by
  unfold weight
  rw [List.getD_eq_getElem?_getD]
  cases h : g.nodes[n]? with
  | none => simp
  | some x => simp

theorem compactIndex_cons (x : Option MuxOp) (l : List (Option MuxOp)) (i : Nat) :
    compactIndex (x :: l) (i + 1) = (if x.isSome then 1 else 0) + compactIndex l i := by
  unfold compactIndex
  simp only [List.take_succ_cons, List.filter_cons]
  split <;> simp <;> omega

theorem compact_get : ∀ (l : List (Option MuxOp)) (i : Nat) (op), l[i]? = some (some op) →
    (l.filter Option.isSome)[compactIndex l i]? = some (some op)
  | [], i, op, h => by simp at h
  | x :: l, 0, op, h => by
    simp at h; subst h
    simp [compactIndex]
  | x :: l, i + 1, op, h => by
    simp only [List.getElem?_cons_succ] at h
    have := compact_get l i op h
    rw [compactIndex_cons]
    cases x with
    | none => simpa using this
    | some y =>
      simp only [Option.isSome_some, if_true, List.filter_cons_of_pos]
      rw [Nat.add_comm, List.getElem?_cons_succ]; exact this

theorem compact_surj : ∀ (l : List (Option MuxOp)) (j : Nat) (op), (l.filter Option.isSome)[j]? = some (some op) →
    ∃ i, l[i]? = some (some op) ∧ compactIndex l i = j
  | [], j, op, h => by simp at h
  | none :: l, j, op, h => by
    simp only [Option.isSome_none, Bool.false_eq_true, not_false_eq_true, List.filter_cons_of_neg] at h
    obtain ⟨i, h1, h2⟩ := compact_surj l j op h
    exact ⟨i + 1, by simpa using h1, by rw [compactIndex_cons, h2]; simp⟩
  | some y :: l, 0, op, h => by
    simp at h; subst h
    exact ⟨0, by simp, by simp [compactIndex]⟩
  | some y :: l, j + 1, op, h => by
    simp only [Option.isSome_some, List.filter_cons_of_pos, List.getElem?_cons_succ] at h
    obtain ⟨i, h1, h2⟩ := compact_surj l j op h
    exact ⟨i + 1, by simpa using h1, by rw [compactIndex_cons, h2]; simp; omega⟩

theorem compact_lt : ∀ (l : List (Option MuxOp)) (i j : Nat) (op), l[i]? = some (some op) → i < j →
    compactIndex l i < compactIndex l j
  | [], i, j, op, h, _ => by simp at h
  | x :: l, i, 0, op, h, hl => by omega
  | x :: l, 0, j + 1, op, h, hl => by
    simp at h; subst h
    rw [compactIndex_cons]; simp [compactIndex]; omega
  | x :: l, i + 1, j + 1, op, h, hl => by
    rw [compactIndex_cons, compactIndex_cons]
    have := compact_lt l i j op (by simpa using h) (by omega)
    omega

theorem compact_inj (l : List (Option MuxOp)) {i j : Nat} {a b} (hi : l[i]? = some (some a)) (hj : l[j]? = some (some b))
    (h : compactIndex l i = compactIndex l j) : i = j := by
  rcases Nat.lt_trichotomy i j with hlt | heq | hlt
  · have := compact_lt l i j a hi hlt; omega
  · exact heq
  · have := compact_lt l j i b hj hlt; omega

theorem compact_weight {g : MGraph} {n op} (h : g.weight n = some op) :
    (compactGraph g).weight (compactIndex g.nodes n) = some op :=
  weight_some.2 (compact_get _ _ _ (weight_some.1 h))

theorem compact_weight_inv {g : MGraph} {m op} (h : (compactGraph g).weight m = some op) :
    ∃ n, g.weight n = some op ∧ compactIndex g.nodes n = m := by
  obtain ⟨i, h1, h2⟩ := compact_surj _ _ _ (weight_some.1 h)
  exact ⟨i, weight_some.2 h1, h2⟩

theorem compact_inj' {g : MGraph} {i j a b} (hi : g.weight i = some a) (hj : g.weight j = some b)
    (h : compactIndex g.nodes i = compactIndex g.nodes j) : i = j :=
  compact_inj g.nodes (weight_some.1 hi) (weight_some.1 hj) h

theorem compact_edge {g : MGraph} (hl : ∀ e ∈ g.edges, (g.weight e.1).isSome ∧ (g.weight e.2.1).isSome) {m n k op}
    (hn : g.weight n = some op) :
    (m, compactIndex g.nodes n, k) ∈ (compactGraph g).edges ↔ ∃ s, compactIndex g.nodes s = m ∧ (s, n, k) ∈ g.edges := by
  simp only [compactGraph, List.mem_map]
  constructor
  · rintro ⟨⟨a, b, c⟩, he, heq⟩
    simp only [Prod.mk.injEq] at heq
    obtain ⟨h1, h2, h3⟩ := heq
    obtain ⟨o, ho⟩ := Option.isSome_iff_exists.1 (hl _ he).2
    have := compact_inj' ho hn h2
    simp only at this
    subst this h3
    exact ⟨a, h1, he⟩
  · rintro ⟨s, h1, h2⟩
    exact ⟨_, h2, by simp [h1]⟩

theorem compact_eval {g : MGraph} (hl : ∀ e ∈ g.edges, (g.weight e.1).isSome ∧ (g.weight e.2.1).isSome) {env n b}
    (hn : (g.weight n).isSome) : Eval (compactGraph g) env (compactIndex g.nodes n) b ↔ Eval g env n b := by
  constructor
  · intro h
    generalize hm : compactIndex g.nodes n = m at h
    induction h generalizing n with
    | zero hw =>
      obtain ⟨n', h1, h2⟩ := compact_weight_inv hw
      obtain ⟨o, ho⟩ := Option.isSome_iff_exists.1 hn
      cases compact_inj' h1 ho (h2.trans hm.symm)
      exact .zero h1
    | one hw =>
      obtain ⟨n', h1, h2⟩ := compact_weight_inv hw
      obtain ⟨o, ho⟩ := Option.isSome_iff_exists.1 hn
      cases compact_inj' h1 ho (h2.trans hm.symm)
      exact .one h1
    | var hw =>
      obtain ⟨n', h1, h2⟩ := compact_weight_inv hw
      obtain ⟨o, ho⟩ := Option.isSome_iff_exists.1 hn
      cases compact_inj' h1 ho (h2.trans hm.symm)
      exact .var h1
    | mux hw hs hl' hh _ _ _ i1 i2 i3 =>
      obtain ⟨n', h1, h2⟩ := compact_weight_inv hw
      obtain ⟨o, ho⟩ := Option.isSome_iff_exists.1 hn
      cases compact_inj' h1 ho (h2.trans hm.symm)
      subst hm
      obtain ⟨s, rfl, e1⟩ := (compact_edge hl h1).1 hs
      obtain ⟨s', rfl, e2⟩ := (compact_edge hl h1).1 hl'
      obtain ⟨s'', rfl, e3⟩ := (compact_edge hl h1).1 hh
      exact .mux h1 e1 e2 e3 (i1 (hl _ e1).1 rfl) (i2 (hl _ e2).1 rfl) (i3 (hl _ e3).1 rfl)
    | output hw hs _ ih =>
      obtain ⟨n', h1, h2⟩ := compact_weight_inv hw
      obtain ⟨o, ho⟩ := Option.isSome_iff_exists.1 hn
      cases compact_inj' h1 ho (h2.trans hm.symm)
      subst hm
      obtain ⟨s, rfl, e1⟩ := (compact_edge hl h1).1 hs
      exact .output h1 e1 (ih (hl _ e1).1 rfl)
  · intro h
    induction h with
    | zero hw => exact .zero (compact_weight hw)
    | one hw => exact .one (compact_weight hw)
    | var hw => exact .var (compact_weight hw)
    | mux hw hs hl' hh _ _ _ i1 i2 i3 =>
      exact .mux (compact_weight hw) ((compact_edge hl hw).2 ⟨_, rfl, hs⟩) ((compact_edge hl hw).2 ⟨_, rfl, hl'⟩)
        ((compact_edge hl hw).2 ⟨_, rfl, hh⟩) (i1 (hl _ hs).1) (i2 (hl _ hl').1) (i3 (hl _ hh).1)
    | output hw hs _ ih =>
      exact .output (compact_weight hw) ((compact_edge hl hw).2 ⟨_, rfl, hs⟩) (ih (hl _ hs).1)

open Classical in
theorem compact_complete {g : MGraph} (h : Complete g) : Complete (compactGraph g) := by
  have pre : ∀ e ∈ (compactGraph g).edges, ∃ a b, e = (compactIndex g.nodes a, compactIndex g.nodes b, e.2.2) ∧ (a, b, e.2.2) ∈ g.edges := by
    intro e he
    simp only [compactGraph, List.mem_map] at he
    obtain ⟨⟨a, b, c⟩, he, rfl⟩ := he
    exact ⟨a, b, rfl, he⟩
  obtain ⟨rank, hr⟩ := h.acyclic
  constructor
  · intro e he
    obtain ⟨a, b, h1, h2⟩ := pre e he
    obtain ⟨⟨x, hx⟩, ⟨y, hy⟩⟩ := (h.live _ h2).imp Option.isSome_iff_exists.1 Option.isSome_iff_exists.1
    rw [h1]; simp only
    rw [compact_weight hx, compact_weight hy]; simp
  · intro e he op hop
    obtain ⟨a, b, h1, h2⟩ := pre e he
    obtain ⟨y, hy⟩ := Option.isSome_iff_exists.1 (h.live _ h2).2
    rw [h1] at hop; simp only at hop hy
    rw [compact_weight hy] at hop; cases hop
    exact h.kind _ h2 _ hy
  · intro m hm
    obtain ⟨n, hn, rfl⟩ := compact_weight_inv hm
    obtain ⟨⟨s, hs⟩, ⟨l, hl⟩, ⟨hh, hhh⟩⟩ := h.mux n hn
    exact ⟨⟨_, (compact_edge h.live hn).2 ⟨_, rfl, hs⟩⟩, ⟨_, (compact_edge h.live hn).2 ⟨_, rfl, hl⟩⟩,
      ⟨_, (compact_edge h.live hn).2 ⟨_, rfl, hhh⟩⟩⟩
  · intro m i hm
    obtain ⟨n, hn, rfl⟩ := compact_weight_inv hm
    obtain ⟨s, hs⟩ := h.out n i hn
    exact ⟨_, (compact_edge h.live hn).2 ⟨_, rfl, hs⟩⟩
  · intro e he i hi
    obtain ⟨a, b, h1, h2⟩ := pre e he
    obtain ⟨y, hy⟩ := Option.isSome_iff_exists.1 (h.live _ h2).1
    rw [h1] at hi; simp only at hi hy
    rw [compact_weight hy] at hi; cases hi
    exact h.sink _ h2 _ hy
  · refine ⟨fun m => if hm : ∃ n, (g.weight n).isSome ∧ compactIndex g.nodes n = m then rank hm.choose else 0, ?_⟩
    have key : ∀ n, (g.weight n).isSome → (if hm : ∃ n', (g.weight n').isSome ∧ compactIndex g.nodes n' = compactIndex g.nodes n then rank hm.choose else 0) = rank n := by
      intro n hn
      have hex : ∃ n', (g.weight n').isSome ∧ compactIndex g.nodes n' = compactIndex g.nodes n := ⟨n, hn, rfl⟩
      rw [dif_pos hex]
      have := hex.choose_spec
      obtain ⟨x, hx⟩ := Option.isSome_iff_exists.1 this.1
      obtain ⟨y, hy⟩ := Option.isSome_iff_exists.1 hn
      rw [compact_inj' hx hy this.2]
    intro e he
    obtain ⟨a, b, h1, h2⟩ := pre e he
    obtain ⟨l1, l2⟩ := h.live _ h2
    rw [h1]
    simp only
    rw [key a l1, key b l2]
    exact hr _ h2

theorem compact_wf {g : MGraph} (h : WF g) : WF (compactGraph g) := by
  have inE : ∀ n op, g.weight n = some op → (compactGraph g).inEdges (compactIndex g.nodes n) =
      (g.inEdges n).map fun e => (compactIndex g.nodes e.1, compactIndex g.nodes e.2.1, e.2.2) := by
    intro n op hn
    unfold inEdges compactGraph
    simp only [List.filter_map]
    congr 1
    apply List.filter_congr
    intro e he
    obtain ⟨y, hy⟩ := Option.isSome_iff_exists.1 (h.live _ he).2
    simp only [Function.comp]
    by_cases hb : e.2.1 = n
    · simp [hb]
    · have : compactIndex g.nodes e.2.1 ≠ compactIndex g.nodes n := fun hc => hb (compact_inj' hy hn hc)
      simp [hb, this]
  refine ⟨compact_complete h.toComplete, ?_, ?_⟩
  · intro m hm
    obtain ⟨n, hn, rfl⟩ := compact_weight_inv hm
    obtain ⟨s, l, hh, hp⟩ := h.mux1 n hn
    refine ⟨compactIndex g.nodes s, compactIndex g.nodes l, compactIndex g.nodes hh, ?_⟩
    rw [inE n _ hn]
    exact hp.map _
  · intro m i hm
    obtain ⟨n, hn, rfl⟩ := compact_weight_inv hm
    obtain ⟨s, hp⟩ := h.out1 n i hn
    exact ⟨compactIndex g.nodes s, by rw [inE n _ hn, hp]; simp⟩

/-! ### the recomputed inputs -/

theorem insertVar_perm (x : Nat × Nat) : ∀ l, (insertVar x l).Perm (x :: l)
  | [] => .refl _
  | y :: ys => by
    simp only [insertVar]
    split
    · exact ((insertVar_perm x ys).cons y).trans (.swap x y ys)
    · exact .refl _

theorem insertVar_sorted (x : Nat × Nat) : ∀ l : List (Nat × Nat), l.Pairwise (fun a b => a.1 ≤ b.1) →
    (insertVar x l).Pairwise (fun a b => a.1 ≤ b.1)
  | [], _ => by simp [insertVar]
  | y :: ys, h => by
    simp only [insertVar]
    rw [List.pairwise_cons] at h
    split
    · rename_i hc
      rw [List.pairwise_cons]
      refine ⟨?_, insertVar_sorted x ys h.2⟩
      intro z hz
      rcases List.mem_cons.1 ((insertVar_perm x ys).mem_iff.1 hz) with rfl | hz
      · exact hc
      · exact h.1 z hz
    · rename_i hc
      rw [List.pairwise_cons, List.pairwise_cons]
      refine ⟨?_, h⟩
      intro z hz
      rcases List.mem_cons.1 hz with rfl | hz
      · omega
      · have := h.1 z hz; omega

theorem sortVars : ∀ (l acc : List (Nat × Nat)), acc.Pairwise (fun a b => a.1 ≤ b.1) →
    (l.foldl (fun acc x => insertVar x acc) acc).Pairwise (fun a b => a.1 ≤ b.1) ∧
    (l.foldl (fun acc x => insertVar x acc) acc).Perm (l ++ acc)
  | [], acc, h => ⟨h, .refl _⟩
  | x :: l, acc, h => by
    simp only [List.foldl_cons]
    obtain ⟨h1, h2⟩ := sortVars l _ (insertVar_sorted x acc h)
    refine ⟨h1, h2.trans ?_⟩
    exact ((insertVar_perm x acc).append_left l).trans List.perm_middle

theorem mem_varNodes {g : MGraph} {x n} : (x, n) ∈ varNodes g ↔ g.weight n = some (.variable x) := by
  unfold varNodes
  rw [List.mem_filterMap]
  constructor
  · rintro ⟨a, ha, h⟩
    split at h
    · rename_i y hy
      simp only [Option.some.injEq, Prod.mk.injEq] at h
      obtain ⟨rfl, rfl⟩ := h
      exact hy
    · cases h
  · intro h
    refine ⟨n, ?_, by rw [h]⟩
    simp only [indices, List.mem_filter, List.mem_range]
    exact ⟨lt_of_weight (by rw [h]; rfl), by rw [h]; rfl⟩

theorem varNodes_nodup (g : MGraph) : (varNodes g).Nodup := by
  unfold varNodes
  apply List.Nodup.filterMap _ ((List.nodup_range).filter _)
  intro a a' b hb hb'
  simp only [Option.mem_def] at hb hb'
  split at hb
  · split at hb'
    · simp only [Option.some.injEq] at hb hb'
      rw [← hb'] at hb
      exact (Prod.mk.inj hb).2
    · cases hb'
  · cases hb

/-- If every index below `nIn` names exactly one variable node and there are no others, the recomputed inputs list
these nodes in order. -/
theorem compact_inputs {g : MGraph} {nIn : Nat} (hex : ∀ i, i < nIn → ∃ n, (compactGraph g).weight n = some (.variable i))
    (hlt : ∀ n i, (compactGraph g).weight n = some (.variable i) → i < nIn)
    (hu : ∀ n n' i, (compactGraph g).weight n = some (.variable i) → (compactGraph g).weight n' = some (.variable i) → n = n') :
    (compactIndices g).inputs.length = nIn ∧
    ∀ n i, (compactGraph g).weight n = some (.variable i) ↔ (i < nIn ∧ (compactIndices g).inputs[i]? = some n) := by
  obtain ⟨hs, hp⟩ := sortVars (varNodes (compactGraph g)) [] List.Pairwise.nil
  rw [List.append_nil] at hp
  have hin : (compactIndices g).inputs = ((varNodes (compactGraph g)).foldl (fun acc x => insertVar x acc) []).map (·.2) := rfl
  generalize hL : (varNodes (compactGraph g)).foldl (fun acc x => insertVar x acc) [] = L at hs hp hin
  have hmem : ∀ x n, (x, n) ∈ L ↔ (compactGraph g).weight n = some (.variable x) := fun x n => by
    rw [hp.mem_iff, mem_varNodes]
  have hnd : L.Nodup := hp.symm.nodup (varNodes_nodup _)
  have hkeys : (L.map (·.1)).Nodup := by
    rw [List.nodup_map_iff_inj_on hnd]
    rintro ⟨x, n⟩ h1 ⟨y, m⟩ h2 (heq : x = y)
    subst heq
    rw [hu n m x ((hmem _ _).1 h1) ((hmem _ _).1 h2)]
  have hperm : (L.map (·.1)).Perm (List.range nIn) := by
    rw [List.perm_ext_iff_of_nodup hkeys List.nodup_range]
    intro a
    simp only [List.mem_map, List.mem_range]
    constructor
    · rintro ⟨⟨x, n⟩, h1, rfl⟩
      exact hlt n x ((hmem _ _).1 h1)
    · intro ha
      obtain ⟨n, hn⟩ := hex a ha
      exact ⟨(a, n), (hmem _ _).2 hn, rfl⟩
  have hsorted : (L.map (·.1)).Pairwise (· ≤ ·) := by
    rw [List.pairwise_map]; exact hs
  have hrange : L.map (·.1) = List.range nIn :=
    hperm.eq_of_pairwise (le := (· ≤ ·)) (fun a b _ _ h1 h2 => Nat.le_antisymm h1 h2) hsorted List.pairwise_le_range
  have hlen : L.length = nIn := by
    have := congrArg List.length hrange
    simpa using this
  refine ⟨by rw [hin]; simpa using hlen, ?_⟩
  intro n i
  rw [hin, List.getElem?_map, ← hmem]
  have hi : ∀ (j : Nat) (p : Nat × Nat), L[j]? = some p → p.1 = j := by
    intro j p hj
    have := congrArg (fun l => l[j]?) hrange
    simp only [List.getElem?_map, hj, Option.map_some] at this
    have hjl : j < nIn := by
      rw [← hlen]; exact (List.getElem?_eq_some_iff.1 hj).1
    rw [List.getElem?_range hjl] at this
    exact Option.some.inj this
  constructor
  · intro hm
    obtain ⟨j, hj⟩ := List.mem_iff_getElem?.1 hm
    have := hi j _ hj
    simp only at this
    subst this
    refine ⟨?_, by rw [hj]; rfl⟩
    rw [← hlen]; exact (List.getElem?_eq_some_iff.1 hj).1
  · rintro ⟨h1, h2⟩
    rw [Option.map_eq_some_iff] at h2
    obtain ⟨⟨x, m⟩, h3, h4⟩ := h2
    have := hi i _ h3
    simp only at this h4
    subst this h4
    exact List.mem_of_getElem? h3

/-- compaction preserves what a circuit computes, given the variable nodes are right -/
theorem compact_computes {g : MGraph} {nIn outs} (hl : ∀ e ∈ g.edges, (g.weight e.1).isSome ∧ (g.weight e.2.1).isSome)
    (hex : ∀ i, i < nIn → ∃ n, g.weight n = some (.variable i))
    (hlt : ∀ n i, g.weight n = some (.variable i) → i < nIn)
    (hu : ∀ n n' i, g.weight n = some (.variable i) → g.weight n' = some (.variable i) → n = n')
    (ou : ∀ n n' i, g.weight n = some (.output i) → g.weight n' = some (.output i) → n = n')
    (oi : ∀ i, (∃ n, g.weight n = some (.output i)) ↔ i < outs.length)
    (ov : ∀ n i f, g.weight n = some (.output i) → outs[i]? = some f → ∀ env b, Eval g env n b ↔ f env = b) :
    Computes (compactIndices g) nIn outs := by
  have uniq : ∀ op, (∀ n n', g.weight n = some op → g.weight n' = some op → n = n') →
      ∀ n n', (compactGraph g).weight n = some op → (compactGraph g).weight n' = some op → n = n' := by
    intro op hh n n' h1 h2
    obtain ⟨a, ha, rfl⟩ := compact_weight_inv h1
    obtain ⟨b, hb, rfl⟩ := compact_weight_inv h2
    rw [hh a b ha hb]
  obtain ⟨h1, h2⟩ := compact_inputs (g := g) (nIn := nIn)
    (fun i hi => by obtain ⟨n, hn⟩ := hex i hi; exact ⟨_, compact_weight hn⟩)
    (fun n i hn => by obtain ⟨a, ha, _⟩ := compact_weight_inv hn; exact hlt a i ha)
    (fun n n' i => uniq _ (fun a b => hu a b i) n n')
  refine ⟨h1, h2, fun n n' i => uniq _ (fun a b => ou a b i) n n', ?_, ?_⟩
  · intro i
    rw [← oi]
    constructor
    · rintro ⟨n, hn⟩
      obtain ⟨a, ha, _⟩ := compact_weight_inv hn
      exact ⟨a, ha⟩
    · rintro ⟨n, hn⟩; exact ⟨_, compact_weight hn⟩
  · intro n i f hn hf env b
    obtain ⟨a, ha, rfl⟩ := compact_weight_inv hn
    rw [← ov a i f ha hf env b]
    exact compact_eval hl (by rw [ha]; rfl)

theorem computes_vars {c : MuxCircuit} {nIn outs} (h : Computes c nIn outs) :
    (∀ i, i < nIn → ∃ n, c.graph.weight n = some (.variable i)) ∧
    (∀ n i, c.graph.weight n = some (.variable i) → i < nIn) ∧
    (∀ n n' i, c.graph.weight n = some (.variable i) → c.graph.weight n' = some (.variable i) → n = n') := by
  refine ⟨?_, ?_, ?_⟩
  · intro i hi
    have : i < c.inputs.length := by rw [h.nInputs]; exact hi
    exact ⟨c.inputs[i], (h.inputs _ _).2 ⟨hi, by simp [this]⟩⟩
  · intro n i hn; exact ((h.inputs _ _).1 hn).1
  · intro n n' i h1 h2
    have a := ((h.inputs _ _).1 h1).2
    have b := ((h.inputs _ _).1 h2).2
    rw [a] at b; exact Option.some.inj b

/-- the optimiser preserves what a circuit computes -/
theorem optimize_computes {c c' : MuxCircuit} {nIn outs} (hw : WF c.graph) (h : Computes c nIn outs)
    (ho : optimize c = some c') : Complete c'.graph ∧ Computes c' nIn outs := by
  unfold optimize at ho
  rw [Option.map_eq_some_iff] at ho
  obtain ⟨g, hg, rfl⟩ := ho
  obtain ⟨h1, h2, h3⟩ := cse_sound hw hg
  refine ⟨compact_complete h1, ?_⟩
  have keep : ∀ n op, op ≠ MuxOp.mux → (g.weight n = some op ↔ c.graph.weight n = some op) := by
    intro n op hop
    rcases h2 n with h | ⟨ha, hb⟩
    · rw [h]
    · rw [ha, hb]; simp [Ne.symm hop]
  obtain ⟨v1, v2, v3⟩ := computes_vars h
  apply compact_computes h1.live
  · intro i hi; obtain ⟨n, hn⟩ := v1 i hi; exact ⟨n, (keep _ _ (by simp)).2 hn⟩
  · intro n i hn; exact v2 n i ((keep _ _ (by simp)).1 hn)
  · intro n n' i a b; exact v3 n n' i ((keep _ _ (by simp)).1 a) ((keep _ _ (by simp)).1 b)
  · intro n n' i a b; exact h.outUnique n n' i ((keep _ _ (by simp)).1 a) ((keep _ _ (by simp)).1 b)
  · intro i; rw [← h.outIdx]
    exact ⟨fun ⟨n, hn⟩ => ⟨n, (keep _ _ (by simp)).1 hn⟩, fun ⟨n, hn⟩ => ⟨n, (keep _ _ (by simp)).2 hn⟩⟩
  · intro n i f hn hf env b
    rw [h3 n (by rw [hn]; rfl), h.value n i f ((keep _ _ (by simp)).1 hn) hf]

end Spf.Mux
