import Verif.Proof.MuxSem
import Mathlib.Tactic.Tauto
/-! Soundness of common-subexpression elimination. -/
namespace Spf.Mux
open Spf.Spec Graph

/-- nodes removed by a transform list -/
def removedOf : List Transform → List Nat
  | [] => []
  | .addEdge .. :: ts => removedOf ts
  | .removeNode n :: ts => n :: removedOf ts

theorem removedOf_append (a b : List Transform) : removedOf (a ++ b) = removedOf a ++ removedOf b := by
  induction a with
  | nil => rfl
  | cons t ts ih => cases t <;> simp [removedOf, ih]

theorem mem_removedOf {ts : List Transform} {n} : n ∈ removedOf ts ↔ Transform.removeNode n ∈ ts := by
  induction ts with
  | nil => simp [removedOf]
  | cons t ts ih => cases t <;> simp [removedOf, ih]

theorem weight_removeNode (g : MGraph) (m n : Nat) : (g.removeNode m).weight n = if n = m then none else g.weight n := by
  unfold weight removeNode
  simp only [List.getD_eq_getElem?_getD, List.getElem?_set]
  split
  · subst n
    by_cases h : m < g.nodes.length <;> simp [h]
  · rw [if_neg]; omega

theorem addEdge_some {g g' : MGraph} {a b k} (h : g.addEdge a b k = some g') :
    (g.weight a).isSome ∧ (g.weight b).isSome ∧ g'.nodes = g.nodes ∧ g'.edges = (a, b, k) :: g.edges := by
  unfold addEdge at h
  split at h
  · rename_i hh
    simp only [Option.some.injEq] at h
    subst h
    exact ⟨hh.1, hh.2, rfl, rfl⟩
  · simp at h

theorem weight_congr {g g' : MGraph} (h : g'.nodes = g.nodes) (n) : g'.weight n = g.weight n := by
  simp [weight, h]

theorem apply_weight : ∀ {ts : List Transform} {g g' : MGraph}, applyTransforms ts g = some g' → ∀ n,
    g'.weight n = if n ∈ removedOf ts then none else g.weight n
  | [], g, g', h, n => by simp [applyTransforms] at h; simp [removedOf, h]
  | .addEdge a b k :: ts, g, g', h, n => by
    simp only [applyTransforms] at h
    split at h
    · simp at h
    · rename_i g1 h1
      obtain ⟨_, _, hn, _⟩ := addEdge_some h1
      rw [apply_weight h n, weight_congr hn]
      rfl
  | .removeNode m :: ts, g, g', h, n => by
    simp only [applyTransforms] at h
    rw [apply_weight h n, weight_removeNode]
    simp only [removedOf, List.mem_cons]
    by_cases h1 : n = m <;> by_cases h2 : n ∈ removedOf ts <;> simp [h1, h2]

theorem apply_length : ∀ {ts : List Transform} {g g' : MGraph}, applyTransforms ts g = some g' →
    g'.nodes.length = g.nodes.length
  | [], g, g', h => by simp [applyTransforms] at h; simp [h]
  | .addEdge a b k :: ts, g, g', h => by
    simp only [applyTransforms] at h
    split at h
    · simp at h
    · rename_i g1 h1
      obtain ⟨_, _, hn, _⟩ := addEdge_some h1
      rw [apply_length h, hn]
  | .removeNode m :: ts, g, g', h => by
    simp only [applyTransforms] at h
    rw [apply_length h]; simp [removeNode]

theorem apply_live : ∀ {ts : List Transform} {g g' : MGraph}, applyTransforms ts g = some g' → ∀ a b k,
    Transform.addEdge a b k ∈ ts → (g.weight a).isSome ∧ (g.weight b).isSome
  | [], g, g', h, a, b, k, hm => by simp at hm
  | .addEdge a' b' k' :: ts, g, g', h, a, b, k, hm => by
    simp only [applyTransforms] at h
    split at h
    · simp at h
    · rename_i g1 h1
      obtain ⟨ha, hb, hn, _⟩ := addEdge_some h1
      rcases List.mem_cons.1 hm with h2 | h2
      · cases h2; exact ⟨ha, hb⟩
      · have := apply_live h a b k h2
        rwa [weight_congr hn, weight_congr hn] at this
  | .removeNode m :: ts, g, g', h, a, b, k, hm => by
    simp only [applyTransforms] at h
    rcases List.mem_cons.1 hm with h2 | h2
    · cases h2
    · have := apply_live h a b k h2
      rw [weight_removeNode, weight_removeNode] at this
      constructor
      · by_cases ha : a = m
        · simp [ha] at this
        · simpa [ha] using this.1
      · by_cases hb : b = m
        · simp [hb] at this
        · simpa [hb] using this.2

theorem apply_edges : ∀ {ts : List Transform} {g g' : MGraph}, applyTransforms ts g = some g' → ∀ a b k,
    (a, b, k) ∈ g'.edges ↔ ((a, b, k) ∈ g.edges ∨ Transform.addEdge a b k ∈ ts) ∧ a ∉ removedOf ts ∧ b ∉ removedOf ts
  | [], g, g', h, a, b, k => by simp [applyTransforms] at h; simp [removedOf, h]
  | .addEdge a' b' k' :: ts, g, g', h, a, b, k => by
    simp only [applyTransforms] at h
    split at h
    · simp at h
    · rename_i g1 h1
      obtain ⟨ha, hb, hn, he⟩ := addEdge_some h1
      rw [apply_edges h, he]
      simp only [removedOf, List.mem_cons, Transform.addEdge.injEq, Prod.mk.injEq]
      tauto
  | .removeNode m :: ts, g, g', h, a, b, k => by
    simp only [applyTransforms] at h
    have hl := apply_live h a b k
    rw [weight_removeNode, weight_removeNode] at hl
    rw [apply_edges h]
    simp only [removeNode, List.mem_filter, removedOf, List.mem_cons, reduceCtorEq, false_or]
    simp only [Bool.and_eq_true, Bool.not_eq_true', beq_eq_false_iff_ne, ne_eq]
    constructor
    · rintro ⟨h1, h2, h3⟩
      rcases h1 with ⟨h1, ha, hb⟩ | h1
      · exact ⟨Or.inl h1, by simp [ha, h2], by simp [hb, h3]⟩
      · have := hl h1
        have ha : a ≠ m := by rintro rfl; simp at this
        have hb : b ≠ m := by rintro rfl; simp at this
        exact ⟨Or.inr h1, by simp [ha, h2], by simp [hb, h3]⟩
    · rintro ⟨h1, h2, h3⟩
      simp only [not_or] at h2 h3
      exact ⟨by tauto, h2.2, h3.2⟩

/-! ### the callback -/

theorem getMuxOperands_mem {g : MGraph} {n s l h} (hg : getMuxOperands g n = some (s, l, h)) :
    (s, n, MuxEdge.select) ∈ g.edges ∧ (l, n, MuxEdge.low) ∈ g.edges ∧ (h, n, MuxEdge.high) ∈ g.edges := by
  unfold getMuxOperands at hg
  simp only at hg
  split at hg
  · simp at hg
  · split at hg
    · rename_i e1 e2 e3 h1 h2 h3
      simp only [Option.some.injEq, Prod.mk.injEq] at hg
      obtain ⟨rfl, rfl, rfl⟩ := hg
      have key : ∀ k e, (g.inEdges n).find? (fun e => e.2.2 == k) = some e → (e.1, n, k) ∈ g.edges := by
        intro k e he
        have a := List.mem_of_find?_eq_some he
        have b := List.find?_some he
        rw [mem_inEdges'] at a
        simp only [beq_iff_eq] at b
        rw [← a.2, ← b]; exact a.1
      exact ⟨key _ _ h1, key _ _ h2, key _ _ h3⟩
    · simp at hg

/-- what the callback guarantees about its transform list -/
structure CseSpec (g : MGraph) (ts : List Transform) : Prop where
  adds : ∀ a b k, Transform.addEdge a b k ∈ ts → ∃ r key, (r, b, k) ∈ g.edges ∧ g.weight r = some .mux ∧
    g.weight a = some .mux ∧ getMuxOperands g r = some key ∧ getMuxOperands g a = some key
  rems : ∀ r, r ∈ removedOf ts → g.weight r = some .mux ∧ ∃ q, q ∉ removedOf ts ∧
    ∀ b k, (r, b, k) ∈ g.edges → Transform.addEdge q b k ∈ ts

def VisOK (g : MGraph) (vis : List ((Nat × Nat × Nat) × Nat)) : Prop :=
  ∀ key q, vis.lookup key = some q → g.weight q = some .mux ∧ getMuxOperands g q = some key

theorem mem_moveEdges {g : MGraph} {q r t} : t ∈ moveEdges g q r ↔
    (∃ b k, (r, b, k) ∈ g.edges ∧ t = .addEdge q b k) ∨ t = .removeNode r := by
  unfold moveEdges outEdges
  simp only [List.mem_append, List.mem_map, List.mem_filter, List.mem_singleton, beq_iff_eq]
  constructor
  · rintro (⟨⟨a, b, k⟩, ⟨h1, h2⟩, rfl⟩ | h)
    · simp only at h2; subst h2; exact Or.inl ⟨b, k, h1, rfl⟩
    · exact Or.inr h
  · rintro (⟨b, k, h1, rfl⟩ | h)
    · exact Or.inl ⟨(r, b, k), ⟨h1, rfl⟩, rfl⟩
    · exact Or.inr h

theorem removedOf_moveEdges {g : MGraph} {q r} : removedOf (moveEdges g q r) = [r] := by
  unfold moveEdges
  rw [removedOf_append]
  have : ∀ l : List (Nat × Nat × MuxEdge), removedOf (l.map (fun e => Transform.addEdge q e.2.1 e.2.2)) = [] := by
    intro l; induction l <;> simp [removedOf, *]
  rw [this]; rfl

theorem cseChildren_spec (g : MGraph) : ∀ (es : List Nat) (vis) (ts), VisOK g vis → cseChildren g es vis = some ts →
    (∀ a b k, Transform.addEdge a b k ∈ ts → ∃ r key, (r, b, k) ∈ g.edges ∧ g.weight r = some .mux ∧
      g.weight a = some .mux ∧ getMuxOperands g r = some key ∧ getMuxOperands g a = some key ∧ r ∈ es) ∧
    (∀ r, r ∈ removedOf ts → r ∈ es ∧ g.weight r = some .mux ∧ ∃ q key, q ∉ removedOf ts ∧
      getMuxOperands g r = some key ∧ getMuxOperands g q = some key ∧
      (∀ b k, (r, b, k) ∈ g.edges → Transform.addEdge q b k ∈ ts) ∧ ∀ q', vis.lookup key = some q' → q' = q) ∧
    (∀ key q, vis.lookup key = some q → q ∉ removedOf ts)
  | [], vis, ts, hv, h => by
    simp only [cseChildren, Option.some.injEq] at h
    subst h; simp [removedOf]
  | e :: es, vis, ts, hv, h => by
    simp only [cseChildren] at h
    split at h
    · simp at h
    · rename_i hw
      split at h
      · simp at h
      · rename_i key hkey
        split at h
        · rename_i equiv hlook
          split at h
          · rename_i hne
            split at h
            · simp at h
            · rename_i ts1 hts1
              simp only [Option.some.injEq] at h
              subst h
              obtain ⟨i1, i2, i3⟩ := cseChildren_spec g es vis ts1 hv hts1
              obtain ⟨hw', hk'⟩ := hv _ _ hlook
              have h3 : ∀ key q, vis.lookup key = some q → q ∉ removedOf (moveEdges g equiv e ++ ts1) := by
                intro key' q hq hm
                rw [removedOf_append, removedOf_moveEdges] at hm
                rcases List.mem_append.1 hm with hm | hm
                · simp only [List.mem_singleton] at hm
                  subst hm
                  have := (hv _ _ hq).2
                  rw [hkey] at this
                  cases this
                  rw [hlook] at hq
                  cases hq
                  exact hne rfl
                · exact i3 _ _ hq hm
              refine ⟨?_, ?_, h3⟩
              · intro a b k hm
                rcases List.mem_append.1 hm with hm | hm
                · rcases mem_moveEdges.1 hm with ⟨b', k', he, heq⟩ | heq
                  · cases heq
                    exact ⟨e, key, he, hw, hw', hkey, hk', List.mem_cons_self⟩
                  · cases heq
                · obtain ⟨r, key, h⟩ := i1 a b k hm
                  exact ⟨r, key, h.1, h.2.1, h.2.2.1, h.2.2.2.1, h.2.2.2.2.1, List.mem_cons_of_mem _ h.2.2.2.2.2⟩
              · intro r hr
                have hr0 := hr
                rw [removedOf_append, removedOf_moveEdges] at hr
                by_cases hre : r = e
                · subst hre
                  refine ⟨List.mem_cons_self, hw, equiv, key, h3 _ _ hlook, hkey, hk', ?_, ?_⟩
                  · intro b k he
                    exact List.mem_append_left _ (mem_moveEdges.2 (Or.inl ⟨b, k, he, rfl⟩))
                  · intro q' hq'; rw [hlook] at hq'; cases hq'; rfl
                · have hr : r ∈ removedOf ts1 := by simpa [hre] using hr
                  obtain ⟨j1, j2, q, key', j3, j4, j5, j6, j7⟩ := i2 r hr
                  by_cases hqe : q = e
                  · subst hqe
                    rw [hkey] at j5; cases j5
                    exact absurd (j7 _ hlook) hne
                  · refine ⟨List.mem_cons_of_mem _ j1, j2, q, key', ?_, j4, j5, fun b k he => List.mem_append_right _ (j6 b k he), j7⟩
                    rw [removedOf_append, removedOf_moveEdges]
                    simp [hqe, j3]
          · rename_i hne
            simp only [ne_eq, not_not] at hne
            obtain ⟨i1, i2, i3⟩ := cseChildren_spec g es vis ts hv h
            refine ⟨?_, ?_, i3⟩
            · intro a b k hm
              obtain ⟨r, key, h⟩ := i1 a b k hm
              exact ⟨r, key, h.1, h.2.1, h.2.2.1, h.2.2.2.1, h.2.2.2.2.1, List.mem_cons_of_mem _ h.2.2.2.2.2⟩
            · intro r hr
              obtain ⟨j1, j2⟩ := i2 r hr
              exact ⟨List.mem_cons_of_mem _ j1, j2⟩
        · rename_i hlook
          have hv' : VisOK g ((key, e) :: vis) := by
            intro key' q hq
            rw [List.lookup_cons] at hq
            split at hq
            · rename_i hb
              simp only [beq_iff_eq] at hb
              cases hq; subst hb
              exact ⟨hw, hkey⟩
            · exact hv _ _ hq
          obtain ⟨i1, i2, i3⟩ := cseChildren_spec g es _ ts hv' h
          refine ⟨?_, ?_, ?_⟩
          · intro a b k hm
            obtain ⟨r, key, h⟩ := i1 a b k hm
            exact ⟨r, key, h.1, h.2.1, h.2.2.1, h.2.2.2.1, h.2.2.2.2.1, List.mem_cons_of_mem _ h.2.2.2.2.2⟩
          · intro r hr
            obtain ⟨j1, j2, q, key', j3, j4, j5, j6, j7⟩ := i2 r hr
            refine ⟨List.mem_cons_of_mem _ j1, j2, q, key', j3, j4, j5, j6, ?_⟩
            intro q' hq'
            apply j7
            rw [List.lookup_cons]
            split
            · rename_i hb
              simp only [beq_iff_eq] at hb
              subst hb
              rw [hlook] at hq'; cases hq'
            · exact hq'
          · intro key' q hq
            apply i3 key' q
            rw [List.lookup_cons]
            split
            · rename_i hb
              simp only [beq_iff_eq] at hb
              subst hb
              rw [hlook] at hq; cases hq
            · exact hq
    · obtain ⟨i1, i2, i3⟩ := cseChildren_spec g es vis ts hv h
      refine ⟨?_, ?_, i3⟩
      · intro a b k hm
        obtain ⟨r, key, h⟩ := i1 a b k hm
        exact ⟨r, key, h.1, h.2.1, h.2.2.1, h.2.2.2.1, h.2.2.2.2.1, List.mem_cons_of_mem _ h.2.2.2.2.2⟩
      · intro r hr
        obtain ⟨j1, j2⟩ := i2 r hr
        exact ⟨List.mem_cons_of_mem _ j1, j2⟩


/-- what is preserved while the graph is rewritten -/
structure CseInv (g0 g : MGraph) : Prop where
  weight : ∀ n, g.weight n = g0.weight n ∨ g0.weight n = some .mux ∧ g.weight n = none
  len : g.nodes.length = g0.nodes.length
  live : ∀ e ∈ g.edges, (g.weight e.1).isSome ∧ (g.weight e.2.1).isSome
  kind : ∀ e ∈ g.edges, ∀ op, g.weight e.2.1 = some op → KindOK op e.2.2
  mux : ∀ n, g.weight n = some .mux → (∃ s, (s, n, MuxEdge.select) ∈ g.edges) ∧ (∃ s, (s, n, MuxEdge.low) ∈ g.edges) ∧
    (∃ s, (s, n, MuxEdge.high) ∈ g.edges)
  out : ∀ n i, g.weight n = some (.output i) → ∃ s, (s, n, MuxEdge.output) ∈ g.edges
  sink : ∀ e ∈ g.edges, ∀ i, g.weight e.1 ≠ some (.output i)
  vals : ∀ (α : Type) (A : Alg α) env v w, EdgeOK g0 v w → NodesOK A env g0 v w → EdgeOK g v w

theorem CseInv.refl {g : MGraph} (h : Complete g) : CseInv g g :=
  ⟨fun _ => Or.inl rfl, rfl, h.live, h.kind, h.mux, h.out, h.sink, fun _ _ _ _ _ h _ => h⟩

theorem CseInv.nodes {g0 g : MGraph} (h : CseInv g0 g) {α} {A : Alg α} {env v w} (hN : NodesOK A env g0 v w) :
    NodesOK A env g v w := by
  intro n op hw
  rcases h.weight n with h1 | ⟨_, h1⟩
  · exact hN n op (by rw [← h1, hw])
  · rw [h1] at hw; cases hw

theorem CseInv.step {g0 g g' : MGraph} (h : CseInv g0 g) {es ts} (hts : cseChildren g es [] = some ts)
    (ha : applyTransforms ts g = some g') : CseInv g0 g' := by
  obtain ⟨c1, c2, -⟩ := cseChildren_spec g es [] ts (by intro _ _ h; simp at h) hts
  have hw := apply_weight ha
  have he := apply_edges ha
  have hl := apply_live ha
  have hw1 : ∀ n op, g'.weight n = some op → g.weight n = some op ∧ n ∉ removedOf ts := by
    intro n op h
    rw [hw] at h
    split at h
    · cases h
    · exact ⟨h, by assumption⟩
  have keep : ∀ s n k, (s, n, k) ∈ g.edges → n ∉ removedOf ts → ∃ s', (s', n, k) ∈ g'.edges := by
    intro s n k hs hn
    by_cases hr : s ∈ removedOf ts
    · obtain ⟨_, _, q, _, hq, _, _, hadd, _⟩ := c2 s hr
      exact ⟨q, (he _ _ _).2 ⟨Or.inr (hadd _ _ hs), hq, hn⟩⟩
    · exact ⟨s, (he _ _ _).2 ⟨Or.inl hs, hr, hn⟩⟩
  have live : ∀ e ∈ g'.edges, (g.weight e.1).isSome ∧ (g.weight e.2.1).isSome := by
    rintro ⟨a, b, k⟩ hm
    obtain ⟨h1 | h1, h2, h3⟩ := (he _ _ _).1 hm
    · exact h.live _ h1
    · exact hl a b k h1
  constructor
  · intro n
    rw [hw]
    split
    · rename_i hr
      have := (c2 n hr).2.1
      rcases h.weight n with h1 | ⟨h1, _⟩
      · right; exact ⟨by rw [← h1]; exact this, rfl⟩
      · right; exact ⟨h1, rfl⟩
    · exact h.weight n
  · rw [apply_length ha, h.len]
  · rintro ⟨a, b, k⟩ hm
    obtain ⟨h1, h2, h3⟩ := (he _ _ _).1 hm
    have := live _ hm
    simp only [hw, h2, h3, if_false]
    exact this
  · rintro ⟨a, b, k⟩ hm op hop
    obtain ⟨h1 | h1, h2, h3⟩ := (he _ _ _).1 hm
    · exact h.kind _ h1 op (hw1 _ _ hop).1
    · obtain ⟨r, _, hr, _⟩ := c1 a b k h1
      exact h.kind _ hr op (hw1 _ _ hop).1
  · intro n hn
    obtain ⟨hn, hr⟩ := hw1 _ _ hn
    obtain ⟨⟨s, hs⟩, ⟨l, hl⟩, ⟨hh, hhh⟩⟩ := h.mux n hn
    exact ⟨keep _ _ _ hs hr, keep _ _ _ hl hr, keep _ _ _ hhh hr⟩
  · intro n i hn
    obtain ⟨hn, hr⟩ := hw1 _ _ hn
    obtain ⟨s, hs⟩ := h.out n i hn
    exact keep _ _ _ hs hr
  · rintro ⟨a, b, k⟩ hm i hi
    obtain ⟨h1 | h1, h2, h3⟩ := (he _ _ _).1 hm
    · exact h.sink _ h1 i (hw1 _ _ hi).1
    · obtain ⟨r, _, _, _, hq, _⟩ := c1 a b k h1
      rw [(hw1 _ _ hi).1] at hq; cases hq
  · intro α A env v w hE hN
    have hE' := h.vals α A env v w hE hN
    have hN' := h.nodes hN
    rintro ⟨a, b, k⟩ hm
    obtain ⟨h1 | h1, h2, h3⟩ := (he _ _ _).1 hm
    · exact hE' _ h1
    · obtain ⟨r, ⟨s, l, hh⟩, hr, hmr, hma, hkr, hka, _⟩ := c1 a b k h1
      simp only
      rw [← hE' _ hr]
      simp only
      have n1 := hN' _ _ hmr
      have n2 := hN' _ _ hma
      simp only [NodeOK] at n1 n2
      obtain ⟨r1, r2, r3⟩ := getMuxOperands_mem hkr
      obtain ⟨a1, a2, a3⟩ := getMuxOperands_mem hka
      rw [n1, n2, ← hE' _ r1, ← hE' _ r2, ← hE' _ r3, ← hE' _ a1, ← hE' _ a2, ← hE' _ a3]

theorem CseInv.iter {g0 : MGraph} {st st' : TState} {n} (h : CseInv g0 st.g) (hi : cseIter st n = some st') :
    CseInv g0 st'.g := by
  unfold cseIter at hi
  simp only at hi
  split at hi
  · cases hi; exact h
  · split at hi
    · cases hi
    · rename_i ts hts
      split at hi
      · cases hi
      · rename_i g hg
        cases hi
        exact h.step hts hg

theorem CseInv.loop {g0 : MGraph} : ∀ (fuel : Nat) {st st' : TState}, CseInv g0 st.g → cseLoop fuel st = some st' →
    CseInv g0 st'.g
  | 0, st, st', h, hi => by cases hi; exact h
  | fuel + 1, st, st', h, hi => by
    simp only [cseLoop] at hi
    split at hi
    · cases hi; exact h
    · rename_i rest _
      split at hi
      · cases hi
      · rename_i st1 h1
        exact CseInv.loop fuel (CseInv.iter (st := { st with stack := rest }) h h1) hi

/-- the rewritten graph is a complete acyclic circuit -/
theorem CseInv.complete {g0 g : MGraph} (h : CseInv g0 g) (h0 : WF g0) : Complete g := by
  refine ⟨h.live, h.kind, h.mux, h.out, h.sink, ?_⟩
  obtain ⟨v, w, hE, hN⟩ := exists_val depthAlg (fun _ => 0) h0
  have hE' := h.vals _ _ _ v w hE hN
  have hN' := h.nodes hN
  refine ⟨fun n => 2 * v n + (match g.weight n with | some (.output _) => 1 | _ => 0), ?_⟩
  rintro ⟨a, b, k⟩ hm
  have ha : (match g.weight a with | some (MuxOp.output _) => 1 | _ => 0) = 0 := by
    have := h.sink _ hm
    simp only at this
    split
    · exact absurd (by assumption) (this _)
    · rfl
  simp only [ha]
  obtain ⟨op, hop⟩ := Option.isSome_iff_exists.1 (h.live _ hm).2
  simp only at hop
  have hk := h.kind _ hm op hop
  have hn := hN' _ _ hop
  have hv := hE' _ hm
  simp only at hv hk
  rw [hop]
  cases op <;> cases k <;> simp only [KindOK] at hk <;> simp only [NodeOK, depthAlg] at hn <;> simp only <;> omega

theorem cse_sound {g g' : MGraph} (h : WF g) (hc : cse g = some g') :
    Complete g' ∧ (∀ n, g'.weight n = g.weight n ∨ g.weight n = some .mux ∧ g'.weight n = none) ∧
    ∀ n, (g'.weight n).isSome → ∀ env b, Eval g' env n b ↔ Eval g env n b := by
  unfold cse at hc
  rw [Option.map_eq_some_iff] at hc
  obtain ⟨st, hst, rfl⟩ := hc
  have hi : CseInv g st.g := CseInv.loop _ (st := initState g) (CseInv.refl h.toComplete) hst
  have hcomp := hi.complete h
  refine ⟨hcomp, hi.weight, ?_⟩
  intro n hn env b
  obtain ⟨v, w, hE, hN⟩ := exists_val boolAlg env h
  have hn0 : (g.weight n).isSome := by
    rcases hi.weight n with h1 | ⟨_, h1⟩
    · rw [← h1]; exact hn
    · rw [h1] at hn; cases hn
  rw [eval_iff hcomp (hi.vals _ _ _ v w hE hN) (hi.nodes hN) n hn, eval_iff h.toComplete hE hN n hn0]

end Spf.Mux
