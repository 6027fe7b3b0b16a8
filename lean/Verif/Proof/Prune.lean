import Verif.Proof.FheGraph
import Mathlib.Data.List.Perm.Subperm
import Mathlib.Data.List.Induction
/-! `prune` copies exactly the nodes the roots depend on, with their values. -/
namespace Spf.Fhe
open Spf.Spec Graph

variable {N E : Type}

theorem lookup_zipIdx {ks : List Nat} (hn : ks.Nodup) (n i : Nat) : (ks.zipIdx.reverse).lookup n = some i ↔ ks[i]? = some n := by
  induction ks using List.reverseRecOn with
  | nil => simp
  | append_singleton ks k ih =>
    have hn' : ks.Nodup := (List.nodup_append.1 hn).1
    have hk : k ∉ ks := fun h => (List.nodup_append.1 hn).2.2 k h k (by simp) rfl
    rw [List.zipIdx_append, List.reverse_append]
    simp only [List.zipIdx_cons, List.zipIdx_nil, List.reverse_cons, List.reverse_nil, List.nil_append, List.cons_append, Nat.zero_add]
    rw [List.lookup_cons]
    by_cases h : n = k
    · subst h
      simp only [BEq.rfl]
      constructor
      · intro h; cases h; simp
      · intro h
        by_cases hi : i < ks.length
        · rw [List.getElem?_append_left hi] at h
          exact absurd (List.mem_of_getElem? h) hk
        · rw [List.getElem?_append_right (by omega)] at h
          have : i - ks.length = 0 := by
            by_contra hc
            rw [List.getElem?_eq_none (by simp; omega)] at h; cases h
          rw [show i = ks.length by omega]
    · have : (n == k) = false := by simp [h]
      simp only [this]
      rw [ih hn']
      by_cases hi : i < ks.length
      · rw [List.getElem?_append_left hi]
      · rw [List.getElem?_append_right (by omega), List.getElem?_eq_none (by omega)]
        constructor
        · intro h; cases h
        · intro hh
          cases hd : i - ks.length with
          | zero => rw [hd] at hh; simp at hh; exact absurd hh.symm h
          | succ m => rw [hd] at hh; simp at hh

theorem lookup_none {ks : List Nat} (hn : ks.Nodup) (n : Nat) : (ks.zipIdx.reverse).lookup n = none ↔ n ∉ ks := by
  constructor
  · intro h hm
    obtain ⟨i, hi⟩ := List.getElem?_of_mem hm
    rw [(lookup_zipIdx hn n i).2 hi] at h; cases h
  · intro h
    cases hl : (ks.zipIdx.reverse).lookup n with
    | none => rfl
    | some i => exact absurd (List.mem_of_getElem? ((lookup_zipIdx hn n i).1 hl)) h

/-- loop invariant -/
structure PInv (g : Graph N E) (nodes ks : List Nat) (st : PState N E) : Prop where
  ren : st.rename = ks.zipIdx.reverse
  out : st.out = ⟨ks.map g.weight, []⟩
  nodup : ks.Nodup
  live : ∀ n ∈ ks, (g.weight n).isSome
  reach : ∀ n ∈ ks, ∃ r ∈ nodes, Reach g n r

theorem PInv.le {g : Graph N E} {nodes ks st} (h : PInv g nodes ks st) : ks.length ≤ g.nodes.length := by
  have : ks ⊆ List.range g.nodes.length := by
    intro n hn
    obtain ⟨x, hx⟩ := Option.isSome_iff_exists.1 (h.live n hn)
    exact List.mem_range.2 (lt_of_weight hx)
  have := (List.subperm_of_subset h.nodup this).length_le
  simpa using this

theorem copyOnce_ok {g : Graph N E} {nodes ks st} (h : PInv g nodes ks st) {push n} (hw : (g.weight n).isSome)
    (hr : ∃ r ∈ nodes, Reach g n r) : ∃ st' ks', copyOnce g push n st = some st' ∧ PInv g nodes ks' st' ∧
      (n ∈ ks ∧ ks' = ks ∧ st' = st ∨ n ∉ ks ∧ ks' = ks ++ [n] ∧ st'.queue = if push then st.queue ++ [n] else st.queue) := by
  obtain ⟨w, hw⟩ := Option.isSome_iff_exists.1 hw
  unfold copyOnce
  by_cases hm : n ∈ ks
  · obtain ⟨i, hi⟩ := List.getElem?_of_mem hm
    have := (lookup_zipIdx h.nodup n i).2 hi
    rw [← h.ren] at this
    exact ⟨st, ks, by rw [this], h, Or.inl ⟨hm, rfl, rfl⟩⟩
  · have := (lookup_none h.nodup n).2 hm
    rw [← h.ren] at this
    refine ⟨⟨(st.out.addNode w).1, if push then st.queue ++ [n] else st.queue, (n, (st.out.addNode w).2) :: st.rename⟩, ks ++ [n], ?_, ?_, Or.inr ⟨hm, rfl, rfl⟩⟩
    · rw [this, hw]
    · refine ⟨?_, ?_, ?_, ?_, ?_⟩
      · simp only [h.ren, h.out, addNode, List.zipIdx_append, List.reverse_append]
        simp
      · simp [h.out, addNode, hw]
      · rw [List.nodup_append]; exact ⟨h.nodup, by simp, by intro a ha b hb; simp at hb; subst hb; rintro rfl; exact hm ha⟩
      · intro a ha
        rcases List.mem_append.1 ha with ha | ha
        · exact h.live a ha
        · simp at ha; subst ha; rw [hw]; rfl
      · intro a ha
        rcases List.mem_append.1 ha with ha | ha
        · exact h.reach a ha
        · simp at ha; subst ha; exact hr

theorem copyPreds_ok {g : Graph N E} {nodes} : ∀ (ps ks : List Nat) (st : PState N E), PInv g nodes ks st →
    (∀ p ∈ ps, (g.weight p).isSome ∧ ∃ r ∈ nodes, Reach g p r) →
    ∃ st' new, copyPreds g ps st = some st' ∧ PInv g nodes (ks ++ new) st' ∧ st'.queue = st.queue ++ new ∧ ∀ p ∈ ps, p ∈ ks ++ new
  | [], ks, st, h, _ => ⟨st, [], rfl, by simpa using h, by simp, by simp⟩
  | p :: ps, ks, st, h, hp => by
    obtain ⟨st1, ks1, h1, h2, h3⟩ := copyOnce_ok h (push := true) (hp p (by simp)).1 (hp p (by simp)).2
    obtain ⟨st2, new, h4, h5, h6, h7⟩ := copyPreds_ok ps ks1 st1 h2 (fun q hq => hp q (by simp [hq]))
    rcases h3 with ⟨a, b, c⟩ | ⟨a, b, c⟩
    · subst b c
      refine ⟨st2, new, by simp only [copyPreds, h1, h4], h5, h6, ?_⟩
      intro q hq
      rcases List.mem_cons.1 hq with rfl | hq
      · exact List.mem_append_left _ a
      · exact h7 q hq
    · subst b
      refine ⟨st2, p :: new, by simp only [copyPreds, h1, h4], by simpa using h5, by rw [h6, c]; simp, ?_⟩
      intro q hq
      rcases List.mem_cons.1 hq with rfl | hq
      · simp
      · simpa using h7 q hq

/-- The predecessors of a node exist and are reachable. -/
theorem preds_ok {g : Graph N E} (hl : Live g) {nodes : List Nat} {n : Nat} (hr : ∃ r ∈ nodes, Reach g n r) :
    ∀ p ∈ g.preds n, (g.weight p).isSome ∧ ∃ r ∈ nodes, Reach g p r := by
  intro p hp
  obtain ⟨e, he, rfl⟩ := List.mem_map.1 hp
  obtain ⟨he1, he2⟩ := mem_in.1 he
  obtain ⟨r, hr1, hr2⟩ := hr
  refine ⟨(hl e he1).1, r, hr1, .step (k := e.2.2) (b := n) ?_ hr2⟩
  rw [← he2]; exact he1

theorem pruneLoop_ok {g : Graph N E} (hl : Live g) {nodes : List Nat} : ∀ (fuel : Nat) (ks : List Nat) (st : PState N E), PInv g nodes ks st →
    (∀ n ∈ st.queue, (g.weight n).isSome ∧ ∃ r ∈ nodes, Reach g n r) →
    (∀ r ∈ nodes, r ∈ st.queue ∨ r ∈ ks) → (∀ n ∈ ks, n ∈ st.queue ∨ ∀ p ∈ g.preds n, p ∈ ks) →
    st.queue.length + (g.nodes.length - ks.length) ≤ fuel →
    ∃ st' ks', pruneLoop g fuel st = some st' ∧ PInv g nodes ks' st' ∧ (∀ r ∈ nodes, r ∈ ks') ∧ ∀ n ∈ ks', ∀ p ∈ g.preds n, p ∈ ks'
  | 0, ks, st, h, hq, hr, hc, hf => by
    have : st.queue = [] := List.length_eq_zero_iff.1 (by omega)
    refine ⟨st, ks, by simp [pruneLoop, this], h, ?_, ?_⟩
    · intro r h; simpa [this] using hr r h
    · intro r h; simpa [this] using hc r h
  | fuel + 1, ks, st, h, hq, hr, hc, hf => by
    cases hqq : st.queue with
    | nil =>
      refine ⟨st, ks, by simp [pruneLoop, hqq], h, ?_, ?_⟩
      · intro r h; simpa [hqq] using hr r h
      · intro r h; simpa [hqq] using hc r h
    | cons cur rest =>
      rw [hqq] at hq hr hc hf
      obtain ⟨st1, ks1, h1, h2, h3⟩ := copyOnce_ok (st := { st with queue := rest }) (ks := ks) (nodes := nodes) (g := g)
        ⟨h.ren, h.out, h.nodup, h.live, h.reach⟩ (push := false) (hq cur (by simp)).1 (hq cur (by simp)).2
      obtain ⟨st2, new, h4, h5, h6, h7⟩ := copyPreds_ok (g.preds cur) ks1 st1 h2 (preds_ok hl (hq cur (by simp)).2)
      have hq1 : st1.queue = rest := by
        rcases h3 with ⟨_, _, c⟩ | ⟨_, _, c⟩
        · rw [c]
        · simpa using c
      have hsub : ∀ n ∈ ks, n ∈ ks1 := by
        rcases h3 with ⟨_, b, _⟩ | ⟨_, b, _⟩ <;> subst b
        · exact fun n h => h
        · exact fun n h => List.mem_append_left _ h
      have hcur : cur ∈ ks1 := by
        rcases h3 with ⟨a, b, _⟩ | ⟨_, b, _⟩ <;> subst b
        · exact a
        · simp
      have hin : ∀ n ∈ ks1, n = cur ∨ n ∈ ks := by
        rcases h3 with ⟨a, b, _⟩ | ⟨_, b, _⟩ <;> subst b
        · exact fun n h => Or.inr h
        · intro n h; rcases List.mem_append.1 h with h | h
          · exact Or.inr h
          · exact Or.inl (by simpa using h)
      have hlen : ks.length ≤ ks1.length := by
        rcases h3 with ⟨a, b, _⟩ | ⟨_, b, _⟩ <;> subst b <;> simp
      have g1 : ∀ n ∈ st2.queue, (g.weight n).isSome ∧ ∃ r ∈ nodes, Reach g n r := by
        rw [h6, hq1]
        intro n hn
        rcases List.mem_append.1 hn with hn | hn
        · exact hq n (by simp [hn])
        · exact ⟨h5.live n (by simp [hn]), h5.reach n (by simp [hn])⟩
      have g2 : ∀ r ∈ nodes, r ∈ st2.queue ∨ r ∈ ks1 ++ new := by
        intro r hr'
        rw [h6, hq1]
        rcases hr r hr' with h | h
        · rcases List.mem_cons.1 h with rfl | h
          · right; simp [hcur]
          · left; simp [h]
        · right; simp [hsub r h]
      have g3 : ∀ n ∈ ks1 ++ new, n ∈ st2.queue ∨ ∀ p ∈ g.preds n, p ∈ ks1 ++ new := by
        intro n hn
        rw [h6, hq1]
        rcases List.mem_append.1 hn with hn | hn
        · rcases hin n hn with rfl | hn'
          · exact Or.inr h7
          · rcases hc n hn' with h | h
            · rcases List.mem_cons.1 h with rfl | h
              · exact Or.inr h7
              · left; simp [h]
            · right; intro p hp; exact List.mem_append_left _ (hsub p (h p hp))
        · left; simp [hn]
      have g4 : st2.queue.length + (g.nodes.length - (ks1 ++ new).length) ≤ fuel := by
        have := h5.le
        rw [h6, hq1]
        simp only [List.length_append, List.length_cons] at this hf ⊢
        omega
      obtain ⟨st3, ks3, h8, h9⟩ := pruneLoop_ok hl fuel (ks1 ++ new) st2 h5 g1 g2 g3 g4
      refine ⟨st3, ks3, ?_, h9⟩
      simp only [pruneLoop, hqq, h1, h4, h8]

/-- renamed edge -/
def rkE (ks : List Nat) (e : Nat × Nat × E) : Nat × Nat × E := (ks.idxOf e.1, ks.idxOf e.2.1, e.2.2)

theorem idxOf_get {ks : List Nat} {n : Nat} (h : n ∈ ks) : ks[ks.idxOf n]? = some n := by
  rw [List.getElem?_eq_getElem (List.idxOf_lt_length_iff.2 h), List.getElem_idxOf]

theorem copyIn_ok {g : Graph N E} {ks : List Nat} (hn : ks.Nodup) (hlive : ∀ n ∈ ks, (g.weight n).isSome) :
    ∀ (es : List (Nat × Nat × E)) (es0 : List (Nat × Nat × E)), (∀ e ∈ es, e.1 ∈ ks ∧ e.2.1 ∈ ks) →
    copyIn ks.zipIdx.reverse es (⟨ks.map g.weight, es0⟩ : Graph N E) = some ⟨ks.map g.weight, (es.map (rkE ks)).reverse ++ es0⟩
  | [], es0, _ => by simp [copyIn]
  | e :: es, es0, h => by
    have h1 := (lookup_zipIdx hn e.1 (ks.idxOf e.1)).2 (idxOf_get (h e (by simp)).1)
    have h2 := (lookup_zipIdx hn e.2.1 (ks.idxOf e.2.1)).2 (idxOf_get (h e (by simp)).2)
    have hw : ∀ n ∈ ks, ((⟨ks.map g.weight, es0⟩ : Graph N E).weight (ks.idxOf n)).isSome := by
      intro n hn
      unfold weight
      rw [List.getD_eq_getElem?_getD, List.getElem?_map, idxOf_get hn]
      exact hlive n hn
    simp only [copyIn, h1, h2]
    rw [addEdge_ok (hw _ (h e (by simp)).1) (hw _ (h e (by simp)).2)]
    simp only
    rw [copyIn_ok hn hlive es _ (fun a ha => h a (by simp [ha]))]
    simp [rkE]

theorem copyAllIn_ok {g : Graph N E} {ks : List Nat} (hn : ks.Nodup) (hlive : ∀ n ∈ ks, (g.weight n).isSome)
    (hcl : ∀ n ∈ ks, ∀ p ∈ g.preds n, p ∈ ks) : ∀ (ns : List Nat) (es0 : List (Nat × Nat × E)), (∀ n ∈ ns, n ∈ ks) →
    copyAllIn g ks.zipIdx.reverse ns (⟨ks.map g.weight, es0⟩ : Graph N E) =
      some ⟨ks.map g.weight, (ns.flatMap fun n => (g.inEdges n).map (rkE ks)).reverse ++ es0⟩
  | [], es0, _ => by simp [copyAllIn]
  | n :: ns, es0, h => by
    simp only [copyAllIn]
    rw [copyIn_ok hn hlive]
    · simp only
      rw [copyAllIn_ok hn hlive hcl ns _ (fun a ha => h a (by simp [ha]))]
      simp
    · intro e he
      refine ⟨hcl n (h n (by simp)) e.1 (List.mem_map.2 ⟨e, he, rfl⟩), ?_⟩
      rw [(mem_in.1 he).2]; exact h n (by simp)

theorem filter_flat {g : Graph N E} {ks : List Nat} {n : Nat} (hn : n ∈ ks) : ∀ ns : List Nat, ns.Nodup → (∀ m ∈ ns, m ∈ ks) →
    (ns.flatMap fun m => (g.inEdges m).map (rkE ks)).filter (fun e => e.2.1 == ks.idxOf n) =
      if n ∈ ns then (g.inEdges n).map (rkE ks) else []
  | [], _, _ => by simp
  | m :: ns, hnd, hk => by
    rw [List.nodup_cons] at hnd
    rw [List.flatMap_cons, List.filter_append, filter_flat hn ns hnd.2 (fun a ha => hk a (by simp [ha]))]
    by_cases h : n = m
    · subst h
      rw [if_neg hnd.1, if_pos (by simp), List.append_nil, List.filter_eq_self]
      intro e he
      obtain ⟨e', he', rfl⟩ := List.mem_map.1 he
      simp [rkE, (mem_in.1 he').2]
    · rw [List.filter_eq_nil_iff.2]
      · simp [h]
      · intro e he
        obtain ⟨e', he', rfl⟩ := List.mem_map.1 he
        simp only [rkE, (mem_in.1 he').2, beq_iff_eq]
        intro hc
        have h1 := idxOf_get hn
        have h2 := idxOf_get (hk m (by simp))
        rw [hc, h1] at h2
        exact h (Option.some.inj h2)

/-- What `prune` returns. -/
theorem prune_ok {g : Graph N E} (hl : Live g) {nodes : List Nat} (hnodes : ∀ n ∈ nodes, (g.weight n).isSome)
    {order : List Nat → List Nat} (ho : ∀ l, (order l).Perm l) :
    ∃ (out : Graph N E) (ks : List Nat), prune g nodes order = some (out, ks.zipIdx.reverse) ∧ ks.Nodup ∧
      (∀ n, n ∈ ks ↔ ∃ r ∈ nodes, Reach g n r) ∧ out.nodes = ks.map g.weight ∧ (∀ n ∈ ks, (g.weight n).isSome) ∧
      (∀ n ∈ ks, out.inEdges (ks.idxOf n) = ((g.inEdges n).map (rkE ks)).reverse) ∧
      out.edges.length = (ks.map fun n => (g.inEdges n).length).sum := by
  obtain ⟨st, ks, h1, h2, h3, h4⟩ := pruneLoop_ok hl (nodes := nodes) (nodes.length + g.nodes.length) []
    (⟨Graph.empty, nodes, []⟩ : PState N E) ⟨rfl, rfl, by simp, by simp, by simp⟩
    (fun n hn => ⟨hnodes n hn, n, hn, .refl⟩) (fun r hr => Or.inl hr) (by simp) (by simp)
  have hkey : st.rename.map (·.1) = ks.reverse := by
    rw [h2.ren]; simp [List.map_reverse]
  have hmo : ∀ n, n ∈ order ks.reverse ↔ n ∈ ks := fun n => by rw [(ho _).mem_iff, List.mem_reverse]
  have hnd : (order ks.reverse).Nodup := (ho _).nodup_iff.2 ((List.reverse_perm ks).nodup_iff.2 h2.nodup)
  have hc := copyAllIn_ok h2.nodup h2.live h4 (order ks.reverse) [] (fun n hn => (hmo n).1 hn)
  refine ⟨⟨ks.map g.weight, ((order ks.reverse).flatMap fun n => (g.inEdges n).map (rkE ks)).reverse⟩, ks, ?_, h2.nodup, ?_, rfl, h2.live, ?_, ?_⟩
  · unfold prune
    simp only [h1, hkey]
    rw [h2.ren, h2.out, hc, List.append_nil]
  · intro n
    constructor
    · exact h2.reach n
    · rintro ⟨r, hr, hreach⟩
      have hr' := h3 r hr
      clear hr
      induction hreach with
      | refl => exact hr'
      | @step a b c k he _ ih =>
        refine h4 b (ih hr') a (List.mem_map.2 ⟨_, mem_in.2 ⟨he, rfl⟩, rfl⟩)
  · intro n hn
    show List.filter _ _ = _
    rw [List.filter_reverse, filter_flat hn _ hnd (fun m hm => (hmo m).1 hm), if_pos ((hmo n).2 hn)]
  · simp only [List.length_reverse, List.length_flatMap, List.length_map]
    exact ((((ho ks.reverse).trans (List.reverse_perm ks)).map _).sum_nat)

/-! ### operators do not depend on the order of their operands -/

theorem pick_some {ins : List (Val × FheEdge)} {k v} (h : pick ins k = some v) : (v, k) ∈ ins := by
  unfold pick at h
  cases hf : ins.find? (fun p => p.2 == k) with
  | none => rw [hf] at h; cases h
  | some p =>
    rw [hf] at h
    cases h
    have := List.find?_some hf
    simp only [beq_iff_eq] at this
    rw [← this]; exact List.mem_of_find?_eq_some hf

theorem pick_perm {ins ins' : List (Val × FheEdge)} (hp : ins.Perm ins') (hn : (ins.map (·.2)).Nodup) {k v} (h : pick ins k = some v) :
    pick ins' k = some v := by
  have hm := hp.mem_iff.1 (pick_some h)
  have hn' : (ins'.map (·.2)).Nodup := (hp.map _).nodup_iff.1 hn
  cases hp' : pick ins' k with
  | none =>
    unfold pick at hp'
    rw [Option.map_eq_none_iff, List.find?_eq_none] at hp'
    have := hp' _ hm
    simp at this
  | some v' =>
    have := pick_some hp'
    have := List.inj_on_of_nodup_map hn' hm this rfl
    simp only [Prod.mk.injEq] at this
    rw [this.1]

theorem pick_nodup {ins : List (Val × FheEdge)} {ks : List FheEdge} (hk : ks.Nodup) (h : ∀ k ∈ ks, (pick ins k).isSome)
    (hlen : ins.length = ks.length) : (ins.map (·.2)).Nodup := by
  have hs : ks ⊆ ins.map (·.2) := by
    intro k hk
    obtain ⟨v, hv⟩ := Option.isSome_iff_exists.1 (h k hk)
    exact List.mem_map.2 ⟨_, pick_some hv, rfl⟩
  have hp := (List.subperm_of_subset hk hs).perm_of_length_le (by simp [hlen])
  exact hp.nodup_iff.1 hk

theorem len2 {α} {l l' : List α} {a b} (h : l.Perm l') (hl : l = [a, b]) : ∃ a' b', l' = [a', b'] := by
  have := h.length_eq
  rw [hl] at this
  match l', this with
  | [x, y], _ => exact ⟨x, y, rfl⟩

theorem len3 {α} {l l' : List α} {a b c} (h : l.Perm l') (hl : l = [a, b, c]) : ∃ a' b' c', l' = [a', b', c'] := by
  have := h.length_eq
  rw [hl] at this
  match l', this with
  | [x, y, z], _ => exact ⟨x, y, z, rfl⟩

theorem execOp_perm {deg cells op ins ins' v} (hp : ins.Perm ins') (h : execOp deg cells op ins = some v) :
    execOp deg cells op ins' = some v := by
  have h2 : ∀ a b k1 k2 v1 v2, ins = [a, b] → k1 ≠ k2 → pick ins k1 = some v1 → pick ins k2 = some v2 →
      (∃ a' b', ins' = [a', b']) ∧ pick ins' k1 = some v1 ∧ pick ins' k2 = some v2 := by
    intro a b k1 k2 v1 v2 hl hne p1 p2
    have hn := pick_nodup (ins := ins) (ks := [k1, k2]) (by simp [hne]) (by simp [p1, p2]) (by rw [hl]; rfl)
    exact ⟨len2 hp hl, pick_perm hp hn p1, pick_perm hp hn p2⟩
  have h3 : ∀ a b c k1 k2 k3 v1 v2 v3, ins = [a, b, c] → k1 ≠ k2 → k1 ≠ k3 → k2 ≠ k3 → pick ins k1 = some v1 → pick ins k2 = some v2 →
      pick ins k3 = some v3 →
      (∃ a' b' c', ins' = [a', b', c']) ∧ pick ins' k1 = some v1 ∧ pick ins' k2 = some v2 ∧ pick ins' k3 = some v3 := by
    intro a b c k1 k2 k3 v1 v2 v3 hl n1 n2 n3 p1 p2 p3
    have hn := pick_nodup (ins := ins) (ks := [k1, k2, k3]) (by simp [n1, n2, n3]) (by simp [p1, p2, p3]) (by rw [hl]; rfl)
    exact ⟨len3 hp hl, pick_perm hp hn p1, pick_perm hp hn p2, pick_perm hp hn p3⟩
  unfold execOp at h
  split at h
  all_goals first
    | (rw [List.nil_perm] at hp; subst hp; exact h)
    | (rw [List.singleton_perm] at hp; subst hp; exact h)
    | cases h
    | skip
  all_goals
    split at h
    · rename_i p1 p2
      first
        | (obtain ⟨⟨a', b', rfl⟩, q1, q2⟩ := h2 _ _ _ _ _ _ rfl (by decide) p1 p2
           simp only [execOp, q1, q2]; exact h)
        | (rename_i p0
           obtain ⟨⟨a', b', c', rfl⟩, q1, q2, q3⟩ := h3 _ _ _ _ _ _ _ _ _ rfl (by decide) (by decide) (by decide) p0 p1 p2
           simp only [execOp, q1, q2, q3]; exact h)
    · cases h

/-- A node of the pruned circuit has the value of the node it is a copy of. -/
theorem prune_eval {deg cells} {g out : FGraph} {ks : List Nat} (hcl : ∀ n ∈ ks, ∀ e ∈ g.inEdges n, e.1 ∈ ks)
    (hnodes : out.nodes = ks.map g.weight) (hin : ∀ n ∈ ks, out.inEdges (ks.idxOf n) = ((g.inEdges n).map (rkE ks)).reverse)
    {n v} (hn : n ∈ ks) : FEval deg cells out (ks.idxOf n) v ↔ FEval deg cells g n v := by
  have hw : ∀ n ∈ ks, out.weight (ks.idxOf n) = g.weight n := by
    intro n hn
    unfold weight
    rw [hnodes, List.getD_eq_getElem?_getD, List.getElem?_map, idxOf_get hn]
    rfl
  have hinj : ∀ n ∈ ks, ∀ i, ks.idxOf n = i → ks.getD i 0 = n := by
    intro n hn i hi
    rw [← hi, List.getD_eq_getElem?_getD, idxOf_get hn]; rfl
  constructor
  · intro h
    generalize hi : ks.idxOf n = i at h
    induction h generalizing n with
    | @op i op v f hwt hf hx ih =>
      subst hi
      rw [hw n hn] at hwt
      rw [hin n hn] at hf hx ih
      refine .op (fun m => f (ks.idxOf m)) hwt ?_ ?_
      · intro e he
        refine ih (rkE ks e) ?_ (hcl n hn e he) rfl
        rw [List.mem_reverse]; exact List.mem_map.2 ⟨e, he, rfl⟩
      · refine execOp_perm ?_ hx
        refine (List.Perm.map _ (List.reverse_perm _)).trans ?_
        rw [List.map_map]
        exact List.Perm.refl _
  · intro h
    induction h with
    | @op n op v f hwt hf hx ih =>
      refine .op (fun i => f (ks.getD i 0)) ((hw n hn).trans hwt) ?_ ?_
      · rw [hin n hn]
        intro e he
        rw [List.mem_reverse] at he
        obtain ⟨e', he', rfl⟩ := List.mem_map.1 he
        have hk := hcl n hn e' he'
        simp only [rkE]
        rw [hinj e'.1 hk _ rfl]
        exact ih e' he' hk
      · rw [hin n hn]
        refine execOp_perm ?_ hx
        refine List.Perm.symm ((List.Perm.map _ (List.reverse_perm _)).trans ?_)
        rw [List.map_map]
        apply List.Perm.of_eq
        apply List.map_congr_left
        intro e he
        simp only [Function.comp, rkE]
        rw [hinj e.1 (hcl n hn e he) _ rfl]

end Spf.Fhe
