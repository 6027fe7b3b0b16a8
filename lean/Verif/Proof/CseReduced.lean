import Verif.Proof.CseTerm
import Mathlib.Data.List.Nodup
/-! The optimiser on circuits that come from reduced decision diagrams: it cannot fail, and the result is well formed. -/
namespace Spf.Mux
open Spf.Spec Graph

/-- unfolding of a node -/
inductive Tree | leaf (n : Nat) | node (s l h : Tree)

def treeAlg : Alg Tree := ⟨.leaf 0, .leaf 1, .node⟩
def treeEnv : Nat → Tree := fun i => .leaf (i + 2)

theorem getMuxOperands_some {g : MGraph} (h : WF g) {n} (hn : g.weight n = some .mux) :
    ∃ s l h', getMuxOperands g n = some (s, l, h') ∧ (s, n, MuxEdge.select) ∈ g.edges ∧ (l, n, MuxEdge.low) ∈ g.edges ∧ (h', n, MuxEdge.high) ∈ g.edges := by
  obtain ⟨s, l, h', hp⟩ := h.mux1 n hn
  have hlen : (g.inEdges n).length = 3 := hp.length_eq
  have key : ∀ k x, (x, n, k) ∈ g.inEdges n → (∀ y, (y, n, k) ∈ g.inEdges n → y = x) → (g.inEdges n).find? (fun e => e.2.2 == k) = some (x, n, k) := by
    intro k x hx hu
    cases hf : (g.inEdges n).find? (fun e => e.2.2 == k) with
    | none => exact absurd (List.find?_eq_none.1 hf _ hx) (by simp)
    | some e =>
      obtain ⟨a, b, c⟩ := e
      have h1 := List.mem_of_find?_eq_some hf
      have h2 := List.find?_some hf
      simp only [beq_iff_eq] at h2
      subst h2
      have h3 := (mem_inEdges'.1 h1).2
      simp only at h3
      subst h3
      rw [hu a h1]
  have u : ∀ k x, (x, n, k) ∈ g.inEdges n → ∀ y, (y, n, k) ∈ g.inEdges n → y = x :=
    fun k x hx y hy => h.unique (mem_inEdges.1 hy) (mem_inEdges.1 hx)
  have m1 : (s, n, MuxEdge.select) ∈ g.inEdges n := hp.mem_iff.2 (by simp)
  have m2 : (l, n, MuxEdge.low) ∈ g.inEdges n := hp.mem_iff.2 (by simp)
  have m3 : (h', n, MuxEdge.high) ∈ g.inEdges n := hp.mem_iff.2 (by simp)
  refine ⟨s, l, h', ?_, mem_inEdges.1 m1, mem_inEdges.1 m2, mem_inEdges.1 m3⟩
  unfold getMuxOperands
  simp only [hlen, ne_eq, not_true_eq_false, if_false, key _ _ m1 (u _ _ m1), key _ _ m2 (u _ _ m2), key _ _ m3 (u _ _ m3)]

theorem getMuxOperands_eq {g : MGraph} (h : WF g) {n s l h'} (hn : g.weight n = some .mux) (h1 : (s, n, MuxEdge.select) ∈ g.edges)
    (h2 : (l, n, MuxEdge.low) ∈ g.edges) (h3 : (h', n, MuxEdge.high) ∈ g.edges) : getMuxOperands g n = some (s, l, h') := by
  obtain ⟨a, b, c, e, e1, e2, e3⟩ := getMuxOperands_some h hn
  rw [e, h.unique h1 e1, h.unique h2 e2, h.unique h3 e3]

theorem edges_nodup {g : MGraph} (h : WF g) : g.edges.Nodup := by
  rw [List.nodup_iff_count_le_one]
  intro e
  by_cases he : e ∈ g.edges
  · have hc : g.edges.count e = (g.inEdges e.2.1).count e := by
      unfold inEdges
      rw [List.count_filter (by simp)]
    rw [hc]
    obtain ⟨op, hop⟩ := Option.isSome_iff_exists.1 (h.live _ he).2
    have hk := h.kind _ he op hop
    have hnd : (g.inEdges e.2.1).Nodup := by
      cases op with
      | mux =>
        obtain ⟨s, l, h', hp⟩ := h.mux1 _ hop
        exact hp.symm.nodup (by simp)
      | output i =>
        obtain ⟨s, hs⟩ := h.out1 _ _ hop
        rw [hs]; simp
      | zero => exact absurd hk (by simp [KindOK])
      | one => exact absurd hk (by simp [KindOK])
      | «variable» i => exact absurd hk (by simp [KindOK])
    exact List.nodup_iff_count_le_one.1 hnd e
  · rw [List.count_eq_zero.2 he]; omega

/-! ### one batch -/

theorem cseChildren_some {g : MGraph} (h : WF g) : ∀ (es : List Nat) vis, (∀ e ∈ es, (g.weight e).isSome) → ∃ ts, cseChildren g es vis = some ts
  | [], vis, _ => ⟨[], rfl⟩
  | e :: es, vis, hl => by
    have ih := fun vis => cseChildren_some h es vis fun x hx => hl x (by simp [hx])
    obtain ⟨op, hop⟩ := Option.isSome_iff_exists.1 (hl e (by simp))
    cases op with
    | mux =>
      obtain ⟨s, l, h', hk, _⟩ := getMuxOperands_some h hop
      simp only [cseChildren, hop, hk]
      cases hv : vis.lookup (s, l, h') with
      | none => exact ih _
      | some q =>
        simp only
        by_cases hq : q = e
        · rw [if_neg (by simp [hq])]; exact ih _
        · rw [if_pos hq]
          obtain ⟨ts, hts⟩ := ih vis
          exact ⟨_, by rw [hts]⟩
    | zero => simp only [cseChildren, hop]; exact ih _
    | one => simp only [cseChildren, hop]; exact ih _
    | «variable» i => simp only [cseChildren, hop]; exact ih _
    | output i => simp only [cseChildren, hop]; exact ih _

/-- edges added by a batch -/
def addsOf : List Transform → List (Nat × Nat × MuxEdge)
  | [] => []
  | .addEdge a b k :: ts => (a, b, k) :: addsOf ts
  | .removeNode _ :: ts => addsOf ts

theorem addsOf_append (a b : List Transform) : addsOf (a ++ b) = addsOf a ++ addsOf b := by
  induction a with
  | nil => rfl
  | cons t ts ih => cases t <;> simp [addsOf, ih]

theorem mem_addsOf {ts : List Transform} {a b k} : (a, b, k) ∈ addsOf ts ↔ Transform.addEdge a b k ∈ ts := by
  induction ts with
  | nil => simp [addsOf]
  | cons t ts ih => cases t <;> simp [addsOf, ih]

theorem addsOf_moveEdges {g : MGraph} {q r} : addsOf (moveEdges g q r) = (g.outEdges r).map fun e => (q, e.2.1, e.2.2) := by
  unfold moveEdges
  rw [addsOf_append]
  have : ∀ l : List (Nat × Nat × MuxEdge), addsOf (l.map fun e => Transform.addEdge q e.2.1 e.2.2) = l.map fun e => (q, e.2.1, e.2.2) := by
    intro l; induction l <;> simp [addsOf, *]
  rw [this]; simp [addsOf]

/-- what a batch does -/
structure Batch (g : MGraph) (es : List Nat) (vis : List ((Nat × Nat × Nat) × Nat)) (ts : List Transform) : Prop where
  adds : ∀ a b k, (a, b, k) ∈ addsOf ts → a ∉ removedOf ts ∧ ∃ r key, r ∈ removedOf ts ∧ r ≠ a ∧ (r, b, k) ∈ g.edges ∧ g.weight a = some .mux ∧
    getMuxOperands g r = some key ∧ getMuxOperands g a = some key ∧ ∀ q, vis.lookup key = some q → q = a
  rems : ∀ r, r ∈ removedOf ts → r ∈ es ∧ g.weight r = some .mux ∧ ∃ q, ∀ b k, (r, b, k) ∈ g.edges → (q, b, k) ∈ addsOf ts
  kept : ∀ key q, vis.lookup key = some q → q ∉ removedOf ts
  seen : ∀ c key q, c ∈ es → c ∉ removedOf ts → g.weight c = some .mux → getMuxOperands g c = some key → vis.lookup key = some q → c = q
  full : ∀ c c' key, c ∈ es → c' ∈ es → c ∉ removedOf ts → c' ∉ removedOf ts → g.weight c = some .mux → g.weight c' = some .mux →
    getMuxOperands g c = some key → getMuxOperands g c' = some key → c = c'
  nodup : es.Nodup → g.edges.Nodup → (∀ a a' b k, (a, b, k) ∈ g.edges → (a', b, k) ∈ g.edges → a = a') → (addsOf ts).Nodup

theorem Batch.skip {g : MGraph} {e es vis ts} (h : Batch g es vis ts) (hv : VisOK g vis)
    (he : ∀ key, g.weight e = some .mux → getMuxOperands g e = some key → vis.lookup key = some e) : Batch g (e :: es) vis ts := by
  refine ⟨h.adds, fun r hr => ⟨by simp [(h.rems r hr).1], (h.rems r hr).2⟩, h.kept, ?_, ?_, fun hn => h.nodup (List.nodup_cons.1 hn).2⟩
  · intro c key q hc hr hw hk hq
    rcases List.mem_cons.1 hc with rfl | hc
    · rw [he key hw hk] at hq; exact Option.some.inj hq
    · exact h.seen c key q hc hr hw hk hq
  · intro c c' key hc hc' hr hr' hw hw' hk hk'
    rcases List.mem_cons.1 hc with h1 | hcm <;> rcases List.mem_cons.1 hc' with h2 | hcm'
    · rw [h1, h2]
    · subst h1; exact (h.seen c' key _ hcm' hr' hw' hk' (he key hw hk)).symm
    · subst h2; exact h.seen c key _ hcm hr hw hk (he key hw' hk')
    · exact h.full c c' key hcm hcm' hr hr' hw hw' hk hk'

theorem cseChildren_batch (g : MGraph) : ∀ (es : List Nat) (vis) (ts), VisOK g vis → cseChildren g es vis = some ts → Batch g es vis ts
  | [], vis, ts, hv, h => by
    simp only [cseChildren, Option.some.injEq] at h
    subst h
    constructor <;> simp [removedOf, addsOf]
  | e :: es, vis, ts, hv, h => by
    simp only [cseChildren] at h
    cases hw : g.weight e with
    | none => rw [hw] at h; cases h
    | some op =>
      rw [hw] at h
      have skip : op ≠ .mux → cseChildren g es vis = some ts → Batch g (e :: es) vis ts := fun hop h =>
        (cseChildren_batch g es vis ts hv h).skip hv (by intro key hw' _; rw [hw] at hw'; exact absurd (Option.some.inj hw') hop)
      cases op with
      | zero => exact skip (by simp) h
      | one => exact skip (by simp) h
      | output i => exact skip (by simp) h
      | «variable» i => exact skip (by simp) h
      | mux =>
        simp only at h
        cases hkey : getMuxOperands g e with
        | none => rw [hkey] at h; cases h
        | some key =>
          rw [hkey] at h
          simp only at h
          cases hlook : vis.lookup key with
          | some q =>
            rw [hlook] at h
            simp only at h
            by_cases hne : q = e
            · rw [if_neg (by simp [hne])] at h
              exact (cseChildren_batch g es vis ts hv h).skip hv (by
                intro key' _ hk'; rw [hkey] at hk'; cases hk'; rw [hlook, hne])
            · rw [if_pos hne] at h
              cases hts : cseChildren g es vis with
              | none => rw [hts] at h; cases h
              | some ts1 =>
                rw [hts] at h
                simp only [Option.some.injEq] at h
                subst h
                have B := cseChildren_batch g es vis ts1 hv hts
                obtain ⟨hw', hk'⟩ := hv _ _ hlook
                have rem : ∀ r, r ∈ removedOf (moveEdges g q e ++ ts1) ↔ r = e ∨ r ∈ removedOf ts1 := by
                  intro r; rw [removedOf_append, removedOf_moveEdges]; simp
                have add : ∀ a b k, (a, b, k) ∈ addsOf (moveEdges g q e ++ ts1) ↔ (a = q ∧ (e, b, k) ∈ g.edges) ∨ (a, b, k) ∈ addsOf ts1 := by
                  intro a b k
                  rw [addsOf_append, addsOf_moveEdges, List.mem_append]
                  refine or_congr ?_ Iff.rfl
                  simp only [outEdges, List.mem_map, List.mem_filter, beq_iff_eq, Prod.mk.injEq]
                  constructor
                  · rintro ⟨⟨x, y, z⟩, ⟨h1, h2⟩, rfl, rfl, rfl⟩
                    simp only at h2; subst h2; exact ⟨rfl, h1⟩
                  · rintro ⟨rfl, h1⟩; exact ⟨(e, b, k), ⟨h1, rfl⟩, rfl, rfl, rfl⟩
                have hqr : q ∉ removedOf (moveEdges g q e ++ ts1) := by
                  rw [rem]; rintro (h | h)
                  · exact hne h
                  · exact B.kept _ _ hlook h
                refine ⟨?_, ?_, ?_, ?_, ?_, ?_⟩
                · intro a b k hm
                  rcases (add a b k).1 hm with ⟨rfl, h1⟩ | h1
                  · exact ⟨hqr, e, key, (rem e).2 (Or.inl rfl), Ne.symm hne, h1, hw', hkey, hk', fun q' hq' => by rw [hlook] at hq'; exact (Option.some.inj hq').symm⟩
                  · obtain ⟨i1, r, key', i2, i3, i4, i5, i6, i7, i8⟩ := B.adds a b k h1
                    refine ⟨?_, r, key', (rem r).2 (Or.inr i2), i3, i4, i5, i6, i7, i8⟩
                    rw [rem]; rintro (h | h)
                    · subst h
                      rw [hkey] at i7; cases i7
                      exact hne (i8 _ hlook)
                    · exact i1 h
                · intro r hr
                  by_cases hre : r = e
                  · subst hre
                    exact ⟨by simp, hw, q, fun b k hb => (add q b k).2 (Or.inl ⟨rfl, hb⟩)⟩
                  · rcases (rem r).1 hr with h | h
                    · exact absurd h hre
                    · obtain ⟨i1, i2, q', i3⟩ := B.rems r h
                      exact ⟨by simp [i1], i2, q', fun b k hb => (add q' b k).2 (Or.inr (i3 b k hb))⟩
                · intro key' q' hq'
                  rw [rem]; rintro (h | h)
                  · subst h
                    have := (hv _ _ hq').2
                    rw [hkey] at this; cases this
                    rw [hlook] at hq'
                    exact hne (Option.some.inj hq')
                  · exact B.kept _ _ hq' h
                · intro c key' q' hc hr hwc hkc hq'
                  have hce : c ≠ e := fun h => hr ((rem c).2 (Or.inl h))
                  rcases List.mem_cons.1 hc with h | hc
                  · exact absurd h hce
                  · exact B.seen c key' q' hc (fun h => hr ((rem c).2 (Or.inr h))) hwc hkc hq'
                · intro c c' key' hc hc' hr hr' hwc hwc' hkc hkc'
                  have hce : c ≠ e := fun h => hr ((rem c).2 (Or.inl h))
                  have hce' : c' ≠ e := fun h => hr' ((rem c').2 (Or.inl h))
                  rcases List.mem_cons.1 hc with h | hc
                  · exact absurd h hce
                  rcases List.mem_cons.1 hc' with h | hc'
                  · exact absurd h hce'
                  exact B.full c c' key' hc hc' (fun h => hr ((rem c).2 (Or.inr h))) (fun h => hr' ((rem c').2 (Or.inr h))) hwc hwc' hkc hkc'
                · intro hn hg hu
                  rw [List.nodup_cons] at hn
                  rw [addsOf_append, List.nodup_append]
                  refine ⟨?_, B.nodup hn.2 hg hu, ?_⟩
                  · rw [addsOf_moveEdges]
                    refine List.Nodup.map_on ?_ (hg.filter _)
                    rintro ⟨x, y, z⟩ hx ⟨x', y', z'⟩ hx' hxx
                    simp only [outEdges, List.mem_filter, beq_iff_eq] at hx hx'
                    simp only [Prod.mk.injEq, true_and] at hxx
                    rw [hx.2, hx'.2, hxx.1, hxx.2]
                  · rintro ⟨x, y, z⟩ hx ⟨x', y', z'⟩ hx' hxx
                    cases hxx
                    rw [addsOf_moveEdges] at hx
                    simp only [outEdges, List.mem_map, List.mem_filter, beq_iff_eq, Prod.mk.injEq] at hx
                    obtain ⟨⟨a, b, c⟩, ⟨h1, h2⟩, rfl, rfl, rfl⟩ := hx
                    simp only at h2 hx'
                    subst h2
                    obtain ⟨_, r, _, i2, _, i4, _⟩ := B.adds _ _ _ hx'
                    have := hu _ _ _ _ h1 i4
                    subst this
                    exact hn.1 (B.rems _ i2).1
          | none =>
            rw [hlook] at h
            simp only at h
            have hl' : ∀ key', List.lookup key' ((key, e) :: vis) = if key' = key then some e else vis.lookup key' := by
              intro key'
              rw [List.lookup_cons]
              by_cases hk : key' = key
              · rw [if_pos hk]; simp [hk]
              · rw [if_neg hk]; simp [beq_eq_false_iff_ne.2 hk]
            have hv' : VisOK g ((key, e) :: vis) := by
              intro key' q hq
              rw [hl'] at hq
              by_cases hk : key' = key
              · rw [if_pos hk] at hq; cases hq; subst hk; exact ⟨hw, hkey⟩
              · rw [if_neg hk] at hq; exact hv _ _ hq
            have B := cseChildren_batch g es _ ts hv' h
            have her : e ∉ removedOf ts := B.kept key e (by rw [hl', if_pos rfl])
            refine ⟨?_, ?_, ?_, ?_, ?_, ?_⟩
            · intro a b k hm
              obtain ⟨i1, r, key', i2, i3, i4, i5, i6, i7, i8⟩ := B.adds a b k hm
              refine ⟨i1, r, key', i2, i3, i4, i5, i6, i7, fun q hq => i8 q ?_⟩
              rw [hl']
              by_cases hk : key' = key
              · rw [hk, hlook] at hq; cases hq
              · rw [if_neg hk]; exact hq
            · intro r hr
              obtain ⟨i1, i2⟩ := B.rems r hr
              exact ⟨by simp [i1], i2⟩
            · intro key' q hq
              refine B.kept key' q ?_
              rw [hl']
              by_cases hk : key' = key
              · rw [hk, hlook] at hq; cases hq
              · rw [if_neg hk]; exact hq
            · intro c key' q hc hr hwc hkc hq
              have hk : key' ≠ key := fun hk => by rw [hk, hlook] at hq; cases hq
              rcases List.mem_cons.1 hc with rfl | hc
              · rw [hkey] at hkc; cases hkc; exact absurd rfl hk
              · exact B.seen c key' q hc hr hwc hkc (by rw [hl', if_neg hk]; exact hq)
            · intro c c' key' hc hc' hr hr' hwc hwc' hkc hkc'
              have one : ∀ d, d ∈ es → d ∉ removedOf ts → g.weight d = some .mux → getMuxOperands g d = some key → d = e :=
                fun d hd hdr hdw hdk => B.seen d key e hd hdr hdw hdk (by rw [hl', if_pos rfl])
              rcases List.mem_cons.1 hc with h1 | hcm <;> rcases List.mem_cons.1 hc' with h2 | hcm'
              · rw [h1, h2]
              · subst h1; rw [hkey] at hkc; cases hkc; exact (one c' hcm' hr' hwc' hkc').symm
              · subst h2; rw [hkey] at hkc'; cases hkc'; exact one c hcm hr hwc hkc
              · exact B.full c c' key' hcm hcm' hr hr' hwc hwc' hkc hkc'
            · intro hn; exact B.nodup (List.nodup_cons.1 hn).2

theorem apply_some : ∀ (ts : List Transform) (g : MGraph), (∀ a b k, (a, b, k) ∈ addsOf ts → (g.weight a).isSome ∧ (g.weight b).isSome ∧ a ∉ removedOf ts ∧ b ∉ removedOf ts) →
    ∃ g', applyTransforms ts g = some g'
  | [], g, _ => ⟨g, rfl⟩
  | .addEdge a b k :: ts, g, h => by
    obtain ⟨h1, h2, _, _⟩ := h a b k (by simp [addsOf])
    simp only [applyTransforms, Graph.addEdge, if_pos (And.intro h1 h2)]
    exact apply_some ts _ fun a' b' k' hm => h a' b' k' (by simp [addsOf, hm])
  | .removeNode n :: ts, g, h => by
    simp only [applyTransforms]
    refine apply_some ts _ fun a' b' k' hm => ?_
    obtain ⟨h1, h2, h3, h4⟩ := h a' b' k' (by simp [addsOf, hm])
    simp only [removedOf, List.mem_cons, not_or] at h3 h4
    rw [weight_removeNode, weight_removeNode, if_neg h3.1, if_neg h4.1]
    exact ⟨h1, h2, h3.2, h4.2⟩

theorem apply_nodup : ∀ (ts : List Transform) (g g' : MGraph), applyTransforms ts g = some g' → g.edges.Nodup → (addsOf ts).Nodup →
    (∀ e ∈ addsOf ts, e ∉ g.edges) → g'.edges.Nodup
  | [], g, g', h, hn, _, _ => by cases h; exact hn
  | .addEdge a b k :: ts, g, g', h, hn, ha, hd => by
    simp only [applyTransforms] at h
    cases h1 : g.addEdge a b k with
    | none => rw [h1] at h; cases h
    | some g1 =>
      rw [h1] at h
      obtain ⟨_, _, _, he⟩ := addEdge_some h1
      simp only [addsOf, List.nodup_cons] at ha
      refine apply_nodup ts g1 g' h (by rw [he]; exact List.nodup_cons.2 ⟨hd _ (by simp [addsOf]), hn⟩) ha.2 ?_
      intro e hm hm'
      rw [he] at hm'
      rcases List.mem_cons.1 hm' with rfl | hm'
      · exact ha.1 hm
      · exact hd e (by simp [addsOf, hm]) hm'
  | .removeNode n :: ts, g, g', h, hn, ha, hd => by
    simp only [applyTransforms] at h
    exact apply_nodup ts _ g' h (hn.filter _) ha fun e hm hm' => hd e hm (List.mem_filter.1 hm').1

/-! ### values of the nodes of a reduced circuit -/

/-- a reduced circuit together with the unfoldings of its nodes -/
structure Shape (g0 : MGraph) (dia : Nat → Nat) (v : Nat → Tree) (w : Nat → MuxEdge → Tree) : Prop where
  wf : WF g0
  sel : SelectorsOnly g0
  red : Reduced g0 dia
  edge : EdgeOK g0 v w
  node : NodesOK treeAlg treeEnv g0 v w

section
variable {g0 : MGraph} {dia : Nat → Nat} {v : Nat → Tree} {w : Nat → MuxEdge → Tree}

theorem Shape.same (S : Shape g0 dia v w) {a b oa ob} (ha : g0.weight a = some oa) (hb : g0.weight b = some ob) (na : ∀ i, oa ≠ .output i)
    (nb : ∀ i, ob ≠ .output i) (hv : v a = v b) : (oa = .mux ∧ ob = .mux) ∨ a = b := by
  have h1 := S.node _ _ ha
  have h2 := S.node _ _ hb
  have L : ∀ op, op ≠ MuxOp.mux → g0.weight a = some op → g0.weight b = some op → a = b := fun op h => S.red.leaves a b op h
  cases oa <;> cases ob <;> (first | exact absurd rfl (na _) | exact absurd rfl (nb _) | skip) <;> simp only [NodeOK, treeAlg, treeEnv] at h1 h2 <;>
    rw [h1, h2] at hv <;> try (simp only [Tree.leaf.injEq, reduceCtorEq] at hv; done)
  all_goals try (simp only [Tree.leaf.injEq] at hv; omega)
  · exact Or.inr (L .one (by simp) ha hb)
  · exact Or.inr (L .zero (by simp) ha hb)
  · exact Or.inl ⟨rfl, rfl⟩
  · rename_i i j
    have : i = j := by simp only [Tree.leaf.injEq] at hv; omega
    subst this
    exact Or.inr (L _ (by simp) ha hb)

theorem Shape.inj (S : Shape g0 dia v w) : ∀ (t : Tree) {a b : Nat}, g0.weight a = some .mux → g0.weight b = some .mux → dia a = dia b → v a = t → v b = t → a = b
  | .leaf k, a, b, ha, _, _, h1, _ => by
    have := S.node _ _ ha
    simp only [NodeOK, treeAlg] at this
    rw [this] at h1; cases h1
  | .node ts tl th, a, b, ha, hb, hd, h1, h2 => by
    have na := S.node _ _ ha
    have nb := S.node _ _ hb
    simp only [NodeOK, treeAlg] at na nb
    rw [na] at h1
    rw [nb] at h2
    simp only [Tree.node.injEq] at h1 h2
    obtain ⟨⟨s, hs⟩, ⟨l, hl⟩, ⟨h, hh⟩⟩ := S.wf.mux a ha
    obtain ⟨⟨s', hs'⟩, ⟨l', hl'⟩, ⟨h', hh'⟩⟩ := S.wf.mux b hb
    have key : ∀ (x x' : Nat) (k : MuxEdge) (t : Tree), (x, a, k) ∈ g0.edges → (x', b, k) ∈ g0.edges → w a k = t → w b k = t →
        (∀ {a b : Nat}, g0.weight a = some .mux → g0.weight b = some .mux → dia a = dia b → v a = t → v b = t → a = b) → x = x' := by
      intro x x' k t hx hx' e1 e2 ih
      obtain ⟨ox, hox⟩ := Option.isSome_iff_exists.1 (S.wf.live _ hx).1
      obtain ⟨ox', hox'⟩ := Option.isSome_iff_exists.1 (S.wf.live _ hx').1
      have v1 : v x = w a k := S.edge _ hx
      have v2 : v x' = w b k := S.edge _ hx'
      rcases S.same hox hox' (fun i hi => S.wf.sink _ hx i (by rw [← hi]; exact hox)) (fun i hi => S.wf.sink _ hx' i (by rw [← hi]; exact hox'))
        (by rw [v1, v2, e1, e2]) with ⟨rfl, rfl⟩ | h
      · exact ih hox hox' (by rw [S.red.inside _ _ _ hx hox ha, S.red.inside _ _ _ hx' hox' hb, hd]) (by rw [v1, e1]) (by rw [v2, e2])
      · exact h
    have es := key s s' _ ts hs hs' h1.1 h2.1 (fun {a b} => S.inj ts)
    have el := key l l' _ tl hl hl' h1.2.1 h2.2.1 (fun {a b} => S.inj tl)
    have eh := key h h' _ th hh hh' h1.2.2 h2.2.2 (fun {a b} => S.inj th)
    subst es; subst el; subst eh
    exact S.red.unique a b s l h ha hb hd hs hl hh hs' hl' hh'

theorem Shape.distinct (S : Shape g0 dia v w) {n} (hn : g0.weight n = some .mux) : w n .low ≠ w n .high := by
  obtain ⟨_, ⟨l, hl⟩, ⟨h, hh⟩⟩ := S.wf.mux n hn
  intro he
  obtain ⟨o1, h1⟩ := Option.isSome_iff_exists.1 (S.wf.live _ hl).1
  obtain ⟨o2, h2⟩ := Option.isSome_iff_exists.1 (S.wf.live _ hh).1
  have v1 : v l = w n .low := S.edge _ hl
  have v2 : v h = w n .high := S.edge _ hh
  refine S.red.distinct n l h hl hh ?_
  rcases S.same h1 h2 (fun i hi => S.wf.sink _ hl i (by rw [← hi]; exact h1)) (fun i hi => S.wf.sink _ hh i (by rw [← hi]; exact h2))
    (by rw [v1, v2, he]) with ⟨rfl, rfl⟩ | h
  · exact S.inj _ h1 h2 (by rw [S.red.inside _ _ _ hl h1 hn, S.red.inside _ _ _ hh h2 hn]) rfl (by rw [v1, v2, he])
  · exact h

/-- invariant of the optimiser on a reduced circuit: `alone` — if two multiplexers still have the same unfolding, each of them is
used by its own diagram only -/
structure RInv (g0 : MGraph) (dia : Nat → Nat) (v : Nat → Tree) (g : MGraph) : Prop where
  cse : CseInv g0 g
  wf : WF g
  sel : SelectorsOnly g
  alone : ∀ a b p k, g.weight a = some .mux → g.weight b = some .mux → a ≠ b → v a = v b → (a, p, k) ∈ g.edges → g.weight p = some .mux → dia p = dia a

theorem RInv.orig {g} (R : RInv g0 dia v g) {n op} (h : g.weight n = some op) : g0.weight n = some op := by
  rcases R.cse.weight n with h1 | ⟨_, h1⟩
  · rw [← h1, h]
  · rw [h1] at h; cases h

theorem RInv.start (S : Shape g0 dia v w) : RInv g0 dia v g0 :=
  ⟨CseInv.refl S.wf.toComplete, S.wf, S.sel, fun a _ p k ha _ _ _ he hp => (S.red.inside a p k he ha hp).symm⟩

theorem perm_of_mem {α} {l l' : List α} (h : l.Nodup) (h' : l'.Nodup) (hm : ∀ x, x ∈ l ↔ x ∈ l') : l.Perm l' :=
  (List.perm_ext_iff_of_nodup h h').2 hm

theorem RInv.step (S : Shape g0 dia v w) {g} (R : RInv g0 dia v g) (n : Nat) :
    ∃ ts g', cseChildren g (g.succs n) [] = some ts ∧ applyTransforms ts g = some g' ∧ RInv g0 dia v g' := by
  have hE : EdgeOK g v w := R.cse.vals _ _ _ v w S.edge S.node
  have hN := R.cse.nodes S.node
  have memS : ∀ m, m ∈ g.succs n ↔ ∃ k, (n, m, k) ∈ g.edges := by
    intro m
    simp only [succs, outEdges, List.mem_map, List.mem_filter, beq_iff_eq]
    constructor
    · rintro ⟨⟨a, b, k⟩, ⟨h1, h2⟩, rfl⟩; simp only at h2; subst h2; exact ⟨k, h1⟩
    · rintro ⟨k, h⟩; exact ⟨_, ⟨h, rfl⟩, rfl⟩
  obtain ⟨ts, hts⟩ := cseChildren_some R.wf (g.succs n) [] (by
    intro e he; obtain ⟨k, hk⟩ := (memS e).1 he; exact (R.wf.live _ hk).2)
  have B := cseChildren_batch g _ _ ts (by intro _ _ h; simp at h) hts
  -- equal keys: same unfolding, same operands
  have keyv : ∀ a b key, g.weight a = some .mux → g.weight b = some .mux → getMuxOperands g a = some key → getMuxOperands g b = some key →
      v a = v b ∧ ∀ x k, (x, a, k) ∈ g.edges → (x, b, k) ∈ g.edges := by
    rintro a b ⟨s, l, h⟩ ha hb ka kb
    obtain ⟨a1, a2, a3⟩ := getMuxOperands_mem ka
    obtain ⟨b1, b2, b3⟩ := getMuxOperands_mem kb
    constructor
    · have n1 := hN _ _ ha
      have n2 := hN _ _ hb
      simp only [NodeOK] at n1 n2
      rw [n1, n2, ← hE _ a1, ← hE _ a2, ← hE _ a3, ← hE _ b1, ← hE _ b2, ← hE _ b3]
    · intro x k hx
      have hk := R.wf.kind _ hx _ ha
      cases k with
      | select => rw [R.wf.unique hx a1]; exact b1
      | low => rw [R.wf.unique hx a2]; exact b2
      | high => rw [R.wf.unique hx a3]; exact b3
      | output => simp [KindOK] at hk
  have ofrem : ∀ r, r ∈ removedOf ts → ∃ q key, q ≠ r ∧ q ∉ removedOf ts ∧ g.weight q = some .mux ∧ g.weight r = some .mux ∧
      getMuxOperands g r = some key ∧ getMuxOperands g q = some key := by
    intro r hr
    obtain ⟨i1, i2, -⟩ := cseChildren_spec g _ [] ts (by intro _ _ h; simp at h) hts
    obtain ⟨j1, j2, q, key, j3, j4, j5, -, -⟩ := i2 r hr
    refine ⟨q, key, by rintro rfl; exact j3 hr, j3, ?_, j2, j4, j5⟩
    obtain ⟨q1, _, _⟩ := getMuxOperands_mem j5
    obtain ⟨op, hop⟩ := Option.isSome_iff_exists.1 (R.wf.live _ q1).2
    have := R.wf.kind _ q1 op hop
    simp only at hop this
    cases op <;> simp [KindOK] at this
    exact hop
  -- an operand of two multiplexers of one unfolding whose own diagram is forced
  have hadd : ∀ a b k, (a, b, k) ∈ addsOf ts → (g.weight a).isSome ∧ (g.weight b).isSome ∧ a ∉ removedOf ts ∧ b ∉ removedOf ts := by
    intro a b k hm
    obtain ⟨i1, r, key, i2, i3, i4, i5, i6, i7, -⟩ := B.adds a b k hm
    refine ⟨by rw [i5]; rfl, (R.wf.live _ i4).2, i1, ?_⟩
    intro hb
    obtain ⟨q, key', j1, j2, j3, j4, j5, j6⟩ := ofrem b hb
    have hr := (B.rems r i2).2.1
    obtain ⟨e1, e2⟩ := keyv r a key hr i5 i6 i7
    obtain ⟨f1, f2⟩ := keyv b q key' j4 j3 j5 j6
    have d1 := R.alone r a b k hr i5 i3 e1 i4 j4
    have d2 := R.alone r a q k hr i5 i3 e1 (f2 _ _ i4) j3
    exact j1 (S.inj _ (R.orig j3) (R.orig j4) (by rw [d1, d2]) rfl f1)
  obtain ⟨g', hg'⟩ := apply_some ts g hadd
  refine ⟨ts, g', hts, hg', ?_⟩
  have hw := apply_weight hg'
  have he : ∀ a b k, (a, b, k) ∈ g'.edges ↔ ((a, b, k) ∈ g.edges ∨ (a, b, k) ∈ addsOf ts) ∧ a ∉ removedOf ts ∧ b ∉ removedOf ts := by
    intro a b k; rw [apply_edges hg', mem_addsOf]
  have hw1 : ∀ n op, g'.weight n = some op → g.weight n = some op ∧ n ∉ removedOf ts := by
    intro n op h
    rw [hw] at h
    by_cases hr : n ∈ removedOf ts
    · rw [if_pos hr] at h; cases h
    · rw [if_neg hr] at h; exact ⟨h, hr⟩
  have C' := R.cse.step hts hg'
  -- the node processed is an operand of everything merged
  have insucc : ∀ r a key, r ∈ removedOf ts → g.weight a = some .mux → getMuxOperands g r = some key → getMuxOperands g a = some key → a ∈ g.succs n := by
    intro r a key hr ha kr ka
    obtain ⟨h1, h2, -⟩ := B.rems r hr
    obtain ⟨k, hk⟩ := (memS r).1 h1
    exact (memS a).2 ⟨k, (keyv r a key h2 ha kr ka).2 _ _ hk⟩
  -- one source for each operand
  have uniq : ∀ a a' b k, (a, b, k) ∈ g'.edges → (a', b, k) ∈ g'.edges → a = a' := by
    have mixed : ∀ a a' b k, (a, b, k) ∈ g.edges → a ∉ removedOf ts → (a', b, k) ∈ addsOf ts → False := by
      intro a a' b k h1 h2 h3
      obtain ⟨_, r, key, i2, _, i4, _⟩ := B.adds a' b k h3
      rw [R.wf.unique h1 i4] at h2
      exact h2 i2
    intro a a' b k h1 h2
    obtain ⟨h1, r1, rb⟩ := (he _ _ _).1 h1
    obtain ⟨h2, r2, -⟩ := (he _ _ _).1 h2
    rcases h1 with h1 | h1 <;> rcases h2 with h2 | h2
    · exact R.wf.unique h1 h2
    · exact (mixed _ _ _ _ h1 r1 h2).elim
    · exact (mixed _ _ _ _ h2 r2 h1).elim
    · obtain ⟨i1, r, key, i2, i3, i4, i5, i6, i7, -⟩ := B.adds a b k h1
      obtain ⟨j1, r', key', j2, j3, j4, j5, j6, j7, -⟩ := B.adds a' b k h2
      have := R.wf.unique i4 j4
      subst this
      rw [i6] at j6; cases j6
      exact B.full a a' key (insucc r a key i2 i5 i6 i7) (insucc r a' key i2 j5 i6 j7) i1 j1 i5 j5 i7 j7
  have gnd := edges_nodup R.wf
  have snd : (g.succs n).Nodup := by
    unfold succs
    refine List.Nodup.map_on ?_ (gnd.filter _)
    rintro ⟨a, b, k⟩ h1 ⟨a', b', k'⟩ h2 hb
    simp only [outEdges, List.mem_filter, beq_iff_eq] at h1 h2
    simp only at hb
    obtain ⟨h1, rfl⟩ := h1
    obtain ⟨h2, rfl⟩ := h2
    subst hb
    obtain ⟨op, hop⟩ := Option.isSome_iff_exists.1 (R.wf.live _ h1).2
    simp only at hop
    have k1 := R.wf.kind _ h1 op hop
    have k2 := R.wf.kind _ h2 op hop
    have s1 := R.sel _ h1
    have s2 := R.sel _ h2
    have v1 := hE _ h1
    have v2 := hE _ h2
    simp only at k1 k2 s1 s2 v1 v2
    have hsel : k = .select ↔ k' = .select := s1.trans s2.symm
    cases op <;> cases k <;> cases k' <;> simp [KindOK] at k1 k2 hsel <;> try rfl
    · exact absurd (v1.symm.trans v2) (S.distinct (R.orig hop))
    · exact absurd (v2.symm.trans v1) (S.distinct (R.orig hop))
  have end' : g'.edges.Nodup := by
    refine apply_nodup ts g g' hg' gnd (B.nodup snd gnd fun a a' b k h h' => R.wf.unique h h') ?_
    rintro ⟨a, b, k⟩ hm hm'
    obtain ⟨i1, r, key, i2, i3, i4, _⟩ := B.adds a b k hm
    exact i3 (R.wf.unique i4 hm')
  have innd : ∀ m, (g'.inEdges m).Nodup := fun m => end'.filter _
  refine ⟨C', ⟨C'.complete S.wf, ?_, ?_⟩, ?_, ?_⟩
  · intro m hm
    obtain ⟨⟨s, hs⟩, ⟨l, hl⟩, ⟨h, hh⟩⟩ := C'.mux m hm
    refine ⟨s, l, h, perm_of_mem (innd m) (by simp) ?_⟩
    rintro ⟨a, b, k⟩
    rw [mem_inEdges']
    simp only [List.mem_cons, Prod.mk.injEq, List.not_mem_nil, or_false]
    constructor
    · rintro ⟨h1, rfl⟩
      have hk := C'.kind _ h1 _ hm
      cases k with
      | select => exact Or.inl ⟨uniq _ _ _ _ h1 hs, rfl, rfl⟩
      | low => exact Or.inr (Or.inl ⟨uniq _ _ _ _ h1 hl, rfl, rfl⟩)
      | high => exact Or.inr (Or.inr ⟨uniq _ _ _ _ h1 hh, rfl, rfl⟩)
      | output => simp [KindOK] at hk
    · rintro (⟨rfl, rfl, rfl⟩ | ⟨rfl, rfl, rfl⟩ | ⟨rfl, rfl, rfl⟩)
      · exact ⟨hs, rfl⟩
      · exact ⟨hl, rfl⟩
      · exact ⟨hh, rfl⟩
  · intro m i hm
    obtain ⟨s, hs⟩ := C'.out m i hm
    refine ⟨s, List.perm_singleton.1 (perm_of_mem (innd m) (by simp) ?_)⟩
    rintro ⟨a, b, k⟩
    rw [mem_inEdges']
    simp only [List.mem_singleton, Prod.mk.injEq]
    constructor
    · rintro ⟨h1, rfl⟩
      have hk := C'.kind _ h1 _ hm
      cases k <;> simp [KindOK] at hk
      exact ⟨uniq _ _ _ _ h1 hs, rfl, rfl⟩
    · rintro ⟨rfl, rfl, rfl⟩; exact ⟨hs, rfl⟩
  · rintro ⟨a, b, k⟩ hm
    obtain ⟨h1, h2, h3⟩ := (he _ _ _).1 hm
    simp only [hw, if_neg h2]
    rcases h1 with h1 | h1
    · exact R.sel _ h1
    · obtain ⟨i1, r, key, i2, i3, i4, i5, _⟩ := B.adds a b k h1
      have := R.sel _ i4
      simp only [(B.rems r i2).2.1] at this
      rw [i5]
      simpa using this
  · intro a b p k ha hb hne hv hm hp
    obtain ⟨ha, hra⟩ := hw1 _ _ ha
    obtain ⟨hb, hrb⟩ := hw1 _ _ hb
    obtain ⟨hp, hrp⟩ := hw1 _ _ hp
    obtain ⟨h1, -, -⟩ := (he _ _ _).1 hm
    rcases h1 with h1 | h1
    · exact R.alone a b p k ha hb hne hv h1 hp
    · exfalso
      obtain ⟨i1, r, key, i2, i3, i4, i5, i6, i7, -⟩ := B.adds a p k h1
      have hr := (B.rems r i2).2.1
      obtain ⟨e1, e2⟩ := keyv r a key hr ha i6 i7
      obtain ⟨s, l, h⟩ := key
      obtain ⟨a1, a2, a3⟩ := getMuxOperands_mem i7
      obtain ⟨r1, r2, r3⟩ := getMuxOperands_mem i6
      obtain ⟨s', l', h', kb, b1, b2, b3⟩ := getMuxOperands_some R.wf hb
      have na := hN _ _ ha
      have nb := hN _ _ hb
      simp only [NodeOK, treeAlg] at na nb
      rw [na, nb] at hv
      simp only [Tree.node.injEq] at hv
      have opnd : ∀ x y kk, (x, a, kk) ∈ g.edges → (x, r, kk) ∈ g.edges → (y, b, kk) ∈ g.edges → w a kk = w b kk → x = y := by
        intro x y kk hx hxr hy hww
        by_contra hxy
        obtain ⟨ox, hox⟩ := Option.isSome_iff_exists.1 (R.wf.live _ hx).1
        obtain ⟨oy, hoy⟩ := Option.isSome_iff_exists.1 (R.wf.live _ hy).1
        have vx : v x = w a kk := hE _ hx
        have vy : v y = w b kk := hE _ hy
        rcases S.same (R.orig hox) (R.orig hoy) (fun i hi => R.wf.sink _ hx i (by rw [← hi]; exact hox))
          (fun i hi => R.wf.sink _ hy i (by rw [← hi]; exact hoy)) (by rw [vx, vy, hww]) with ⟨rfl, rfl⟩ | h
        · have d1 := R.alone x y a kk hox hoy hxy (by rw [vx, vy, hww]) hx ha
          have d2 := R.alone x y r kk hox hoy hxy (by rw [vx, vy, hww]) hxr hr
          exact i3 (S.inj _ (R.orig hr) (R.orig ha) (by rw [d1, d2]) rfl e1.symm)
        · exact hxy h
      have es := opnd s s' _ a1 r1 b1 hv.1
      have el := opnd l l' _ a2 r2 b2 hv.2.1
      have eh := opnd h h' _ a3 r3 b3 hv.2.2
      subst es; subst el; subst eh
      exact hne (B.full a b _ (insucc r a _ i2 ha i6 i7) (insucc r b _ i2 hb i6 kb) hra hrb ha hb i7 kb)

theorem RInv.iter (S : Shape g0 dia v w) {st : TState} (R : RInv g0 dia v st.g) (n : Nat) : ∃ st', cseIter st n = some st' ∧ RInv g0 dia v st'.g := by
  unfold cseIter
  cases hw : st.g.weight n with
  | none => exact ⟨_, rfl, R⟩
  | some op =>
    obtain ⟨ts, g', h1, h2, h3⟩ := R.step S n
    simp only [h1, h2]
    exact ⟨_, rfl, h3⟩

theorem RInv.loop (S : Shape g0 dia v w) : ∀ (fuel : Nat) {st : TState}, RInv g0 dia v st.g → ∃ st', cseLoop fuel st = some st' ∧ RInv g0 dia v st'.g
  | 0, st, R => ⟨st, rfl, R⟩
  | fuel + 1, st, R => by
    simp only [cseLoop]
    cases hs : st.stack with
    | nil => exact ⟨st, rfl, R⟩
    | cons n rest =>
      obtain ⟨st1, h1, R1⟩ := RInv.iter S (st := { st with stack := rest }) R n
      simp only [h1]
      exact RInv.loop S fuel R1

end

/-- the optimiser succeeds on a reduced circuit; the result is well formed, keeps the selector discipline and the variable order -/
theorem cse_reduced {g : MGraph} {dia} (h : WF g) (hs : SelectorsOnly g) (hr : Reduced g dia) :
    ∃ g', cse g = some g' ∧ WF g' ∧ SelectorsOnly g' ∧ (Ordered g → Ordered g') := by
  obtain ⟨v, w, hE, hN⟩ := exists_val treeAlg treeEnv h
  have S : Shape g dia v w := ⟨h, hs, hr, hE, hN⟩
  obtain ⟨st, h1, R⟩ := RInv.loop S g.nodes.length (st := initState g) (RInv.start S)
  refine ⟨st.g, by unfold cse; rw [h1]; rfl, R.wf, R.sel, ?_⟩
  intro ho m n k s s' i j hm hk hmm hs1 hi hs2 hj
  have hE' := R.cse.vals _ _ _ v w hE hN
  obtain ⟨op, hop⟩ := Option.isSome_iff_exists.1 (R.wf.live _ hm).2
  have hn : st.g.weight n = some .mux := by
    have := R.wf.kind _ hs1 op hop
    simp only at hop this
    cases op <;> simp [KindOK] at this
    exact hop
  have hkn := R.wf.kind _ hm _ hn
  simp only at hkn
  have n0 := R.orig hn
  have m0 := R.orig hmm
  -- the same operand in the original graph
  obtain ⟨⟨s0, hs0⟩, ⟨l0, hl0⟩, ⟨h0, hh0⟩⟩ := h.mux n n0
  obtain ⟨m1, hm1⟩ : ∃ m1, (m1, n, k) ∈ g.edges := by
    cases k with
    | select => exact absurd rfl hk
    | low => exact ⟨_, hl0⟩
    | high => exact ⟨_, hh0⟩
    | output => simp [KindOK] at hkn
  have e1 : v m1 = v m := by
    rw [show v m1 = w n k from hE _ hm1, show v m = w n k from hE' _ hm]
  obtain ⟨o1, ho1⟩ := Option.isSome_iff_exists.1 (h.live _ hm1).1
  have ho1m : o1 = .mux := by
    rcases S.same ho1 m0 (fun i hi => h.sink _ hm1 i (by rw [← hi]; exact ho1)) (by simp) e1 with ⟨h1, _⟩ | h1
    · exact h1
    · rw [h1] at ho1
      exact Option.some.inj (ho1.symm.trans m0)
  subst ho1m
  have selVar : ∀ x p t q, g.weight p = some .mux → (x, p, MuxEdge.select) ∈ g.edges → w p .select = v t → g.weight t = some (.variable q) → g.weight x = some (.variable q) := by
    intro x p t q hp hx hwt ht
    obtain ⟨q', hq'⟩ := (hs _ hx).1 rfl
    have v1 : v x = w p .select := hE _ hx
    have v2 := hN _ _ ht
    have v3 := hN _ _ hq'
    simp only [NodeOK, treeEnv] at v2 v3
    rw [v1, hwt, v2] at v3
    simp only [Tree.leaf.injEq] at v3
    have : q' = q := by omega
    rw [← this]; exact hq'
  obtain ⟨⟨s1, hss1⟩, _⟩ := h.mux m1 ho1
  have nm1 := hN _ _ ho1
  have nm := hN _ _ m0
  simp only [NodeOK, treeAlg] at nm1 nm
  have e2 := nm1.symm.trans (e1.trans nm)
  simp only [Tree.node.injEq] at e2
  exact ho m1 n k s0 s1 i j hm1 hk ho1 hs0 (selVar _ _ s i n0 hs0 (hE' _ hs1).symm (R.orig hi)) hss1
    (selVar _ _ s' j ho1 hss1 (by rw [e2.1]; exact (hE' _ hs2).symm) (R.orig hj))

end Spf.Mux
