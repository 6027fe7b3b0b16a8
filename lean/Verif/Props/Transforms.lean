import Verif.Proof.Transforms
import Mathlib.Data.List.Induction
/-! C116: lists of graph transforms (mux_circuits/src/opt.rs). -/
namespace Spf.Props
open Spf.Transforms Spf.Spec
variable {N E : Type}

theorem filterMap_ids (ids : List (Option Nat)) :
    ids.filterMap id =
      ((List.range ids.length).filter fun k => (ids.getD k none).isSome).map fun k => (ids.getD k none).getD 0 := by
  induction ids using List.reverseRecOn with
  | nil => rfl
  | append_singleton ids o ih =>
    rw [List.filterMap_append, ih, List.length_append, List.length_singleton, List.range_succ, List.filter_append,
      List.map_append]
    have hk : ∀ k ∈ List.range ids.length, (ids ++ [o]).getD k none = ids.getD k none := by
      intro k hk
      have := List.mem_range.1 hk
      simp only [List.getD_eq_getElem?_getD]
      rw [List.getElem?_append_left this]
    congr 1
    · have : (List.range ids.length).filter (fun k => ((ids ++ [o]).getD k none).isSome) =
          (List.range ids.length).filter (fun k => (ids.getD k none).isSome) :=
        List.filter_congr fun k h => by rw [hk k h]
      rw [this]
      exact List.map_congr_left fun k h => by rw [hk k (List.mem_filter.1 h).1]
    · cases o <;> simp

theorem added_eq {ts : List (Transform N E)} {ids : List (Option Nat)}
    (h : List.Forall₂ (fun t (o : Option Nat) => o.isSome ↔ ∃ n, t = Transform.addNode n) ts ids) :
    ids.filterMap id = (adders ts).map fun k => slotOf ids (.deferred k) := by
  rw [filterMap_ids, adders, h.length_eq]
  have : (List.range ids.length).filter (fun k => (ids.getD k none).isSome) =
      (List.range ids.length).filter (fun k =>
        match ts[k]? with
        | some (.addNode _) => true
        | _ => false) := by
    refine List.filter_congr fun k hk => ?_
    have hk := List.mem_range.1 hk
    have hk' : k < ts.length := h.length_eq ▸ hk
    have := (List.forall₂_iff_get.1 h).2 k hk' hk
    simp only [List.get_eq_getElem] at this
    rw [List.getD_eq_getElem?_getD, List.getElem?_eq_getElem hk, List.getElem?_eq_getElem hk']
    simp only [Option.getD_some]
    rw [Bool.eq_iff_iff, this]
    cases ts[k] <;> simp
  rw [this]
  rfl

/-- **C116.** Applying a list of transforms to a graph does what the transforms say, with every node called by a name of
its own: if every name a transform mentions is a node at that point (and every removed edge exists), the call succeeds and
there is a placement `ρ` of names in slots such that the final graph is the one the transforms describe, a node of the
original graph keeps its index, and the returned list holds the slots of the added nodes in the order of their
transforms. Reuse of vacated slots never confuses two nodes. -/
theorem C116_apply (g : Stable N E) (hg : WellFormed g) (ts : List (Transform N E)) (h : Named N E)
    (hrun : Named.run 0 (Named.ofGraph g) ts = some h) :
    ∃ g' ρ, apply ts g = some (g', (adders ts).map fun k => ρ (.deferred k)) ∧ Placed ρ h g' ∧
      (∀ i, ρ (.node i) = i) ∧ WellFormed g' := by
  obtain ⟨g', ids, hl, hi, ho⟩ := loop_ok ts [] [] (Named.ofGraph g) h g (inv_init hg) (fun _ _ => rfl) hrun
  refine ⟨g', slotOf ids, ?_, by simpa using hi.placed, fun i => rfl, hi.wf⟩
  unfold apply
  rw [hl, added_eq ho]
  rfl

/-- A name is a node after the transforms if it was one before and no transform removes it. -/
theorem run_keeps (x : Name) (n : N) : ∀ (ts : List (Transform N E)) (k : Nat) (h h' : Named N E),
    h.node x = some n → (∀ j, x = .deferred j → j < k) → Transform.removeNode x ∉ ts → Named.run k h ts = some h' →
    h'.node x = some n
  | [], k, h, h', hx, _, _, hr => by
    have : h = h' := Option.some.inj hr
    exact this ▸ hx
  | t :: ts, k, h, h', hx, hj, hn, hr => by
    have hr' : (h.step k t).bind (fun g => Named.run (k + 1) g ts) = some h' := hr
    cases hs : h.step k t with
    | none => rw [hs] at hr'; simp at hr'
    | some h1 =>
      rw [hs] at hr'
      refine run_keeps x n ts (k + 1) h1 h' ?_ (fun j he => by have := hj j he; omega)
        (fun hm => hn (List.mem_cons_of_mem _ hm)) hr'
      cases t with
      | addNode m =>
        have := (Option.some.inj hs).symm
        subst this
        simp only
        rw [if_neg]
        · exact hx
        · intro he
          have := hj k he
          omega
      | addEdge a b e =>
        simp only [Named.step] at hs
        split at hs
        · have := (Option.some.inj hs).symm
          subst this; exact hx
        · simp at hs
      | removeNode a =>
        simp only [Named.step] at hs
        split at hs
        · have := (Option.some.inj hs).symm
          subst this
          simp only
          rw [if_neg]
          · exact hx
          · rintro rfl
            exact hn (by simp)
        · simp at hs
      | removeEdge a b =>
        simp only [Named.step] at hs
        split at hs
        · have := (Option.some.inj hs).symm
          subst this; exact hx
        · simp at hs

/-- **C116, untouched nodes.** A node of the graph that no transform removes is still there, at the same index with the
same weight. -/
theorem C116_untouched (g : Stable N E) (hg : WellFormed g) (ts : List (Transform N E)) (h : Named N E)
    (hrun : Named.run 0 (Named.ofGraph g) ts = some h) (i : Nat) (n : N) (hi : g.weight i = some n)
    (hn : Transform.removeNode (.node i) ∉ ts) :
    ∃ g' added, apply ts g = some (g', added) ∧ g'.weight i = some n := by
  obtain ⟨g', ρ, ha, hp, hr, _⟩ := C116_apply g hg ts h hrun
  refine ⟨g', _, ha, ?_⟩
  have := run_keeps (.node i) n ts 0 _ h (by exact hi) (by simp) hn hrun
  exact (hp.node i n).2 ⟨_, this, hr i⟩

theorem mat_shape {pre : List (Transform N E)} {ids : List (Option Nat)}
    (h : List.Forall₂ (fun t (o : Option Nat) => o.isSome ↔ ∃ n, t = Transform.addNode n) pre ids) {j i : Nat}
    (hm : materialize ids (.deferred j) = some i) : j < pre.length ∧ ∃ n, pre[j]? = some (.addNode n) := by
  simp only [materialize, List.getD_eq_getElem?_getD] at hm
  cases ho : ids[j]? with
  | none => rw [ho] at hm; simp at hm
  | some o =>
    obtain ⟨hj, hjo⟩ := List.getElem?_eq_some_iff.1 ho
    have hj' : j < pre.length := h.length_eq ▸ hj
    have hs := (List.forall₂_iff_get.1 h).2 j hj' hj
    simp only [List.get_eq_getElem] at hs
    rw [ho] at hm
    have : o = some i := hm
    rw [hjo, this] at hs
    obtain ⟨n, hn⟩ := hs.1 rfl
    exact ⟨hj', n, by rw [List.getElem?_eq_getElem hj', hn]⟩

theorem one_shape {ids : List (Option Nat)} {g g' : Stable N E} {t : Transform N E} {o : Option Nat}
    (h : applyOne ids g t = some (g', o)) :
    (o.isSome ↔ ∃ n, t = Transform.addNode n) ∧ ∀ x ∈ mentions t, ∃ i, materialize ids x = some i := by
  cases t with
  | addNode n =>
    have : some (g.addNode n).2 = o := congrArg Prod.snd (Option.some.inj h)
    rw [← this]
    simp [mentions]
  | addEdge a b e =>
    simp only [applyOne] at h
    cases ha : materialize ids a with
    | none => rw [ha] at h; simp at h
    | some a' =>
      cases hb : materialize ids b with
      | none => rw [ha, hb] at h; simp at h
      | some b' =>
        rw [ha, hb] at h
        simp only [Option.map_eq_some_iff] at h
        obtain ⟨_, _, h3⟩ := h
        have : o = none := (congrArg Prod.snd h3).symm
        simp [mentions, ha, hb, this]
  | removeEdge a b =>
    simp only [applyOne] at h
    cases ha : materialize ids a with
    | none => rw [ha] at h; simp at h
    | some a' =>
      cases hb : materialize ids b with
      | none => rw [ha, hb] at h; simp at h
      | some b' =>
        rw [ha, hb] at h
        simp only [Option.map_eq_some_iff] at h
        obtain ⟨_, _, h3⟩ := h
        have : o = none := (congrArg Prod.snd h3).symm
        simp [mentions, ha, hb, this]
  | removeNode a =>
    simp only [applyOne] at h
    cases ha : materialize ids a with
    | none => rw [ha] at h; simp at h
    | some a' =>
      rw [ha] at h
      have : o = none := (congrArg Prod.snd (Option.some.inj h)).symm
      simp [mentions, ha, this]

theorem loop_mentions : ∀ (ts pre : List (Transform N E)) (ids : List (Option Nat)) (added : List Nat) (g : Stable N E)
    (r : Stable N E × List (Option Nat) × List Nat),
    List.Forall₂ (fun t (o : Option Nat) => o.isSome ↔ ∃ n, t = Transform.addNode n) pre ids →
    applyLoop ts ids added g = some r → ∀ i t, ts[i]? = some t → ∀ j, Name.deferred j ∈ mentions t →
    j < pre.length + i ∧ ∃ n, (pre ++ ts)[j]? = some (.addNode n)
  | [], pre, ids, added, g, r, hp, hl, i, t, ht, j, hj => by simp at ht
  | t0 :: ts, pre, ids, added, g, r, hp, hl, i, t, ht, j, hj => by
    rw [applyLoop] at hl
    cases h1 : applyOne ids g t0 with
    | none => rw [h1] at hl; simp at hl
    | some q =>
      obtain ⟨g1, o⟩ := q
      rw [h1] at hl
      have hs := one_shape h1
      cases i with
      | zero =>
        have : t0 = t := by simpa using ht
        subst this
        obtain ⟨i, hi⟩ := hs.2 _ hj
        obtain ⟨hlt, n, hn⟩ := mat_shape hp hi
        exact ⟨by omega, n, by rw [List.getElem?_append_left hlt]; exact hn⟩
      | succ i =>
        have hp' : List.Forall₂ (fun t (o : Option Nat) => o.isSome ↔ ∃ n, t = Transform.addNode n) (pre ++ [t0])
            (ids ++ [o]) := List.rel_append hp (.cons hs.1 .nil)
        have := loop_mentions ts (pre ++ [t0]) (ids ++ [o]) _ g1 r hp' hl i t (by simpa using ht) j hj
        simp only [List.length_append, List.length_singleton, List.append_assoc, List.singleton_append] at this
        exact ⟨by omega, this.2⟩

/-- **C116, deferred indices.** Applying a list of transforms panics, whatever the graph, as soon as one of them mentions
a deferred index that is not the number of an earlier `AddNode`. -/
theorem C116_deferred (g : Stable N E) (ts : List (Transform N E)) (i : Nat) (t : Transform N E) (ht : ts[i]? = some t)
    (j : Nat) (hj : Name.deferred j ∈ mentions t) (hbad : i ≤ j ∨ ∀ n, ts[j]? ≠ some (.addNode n)) :
    apply ts g = none := by
  cases hl : applyLoop ts [] [] g with
  | none => simp [apply, hl]
  | some r =>
    have := loop_mentions ts [] [] [] g r .nil hl i t ht j hj
    simp only [List.length_nil, Nat.zero_add, List.nil_append] at this
    obtain ⟨h1, n, hn⟩ := this
    rcases hbad with h | h
    · omega
    · exact absurd hn (h n)

/-- **C116, push.** The index `push` returns is the number of the pushed transform, so that `DeferredIndex` of it names
the node it adds; the transforms already there keep their numbers. -/
theorem C116_push (ts : List (Transform N E)) (t : Transform N E) :
    (push ts t).1[(push ts t).2]? = some t ∧ ∀ k, k < ts.length → (push ts t).1[k]? = ts[k]? ∧ k < (push ts t).2 := by
  refine ⟨by simp [push], fun k hk => ⟨?_, by simpa [push] using hk⟩⟩
  simp only [push]
  rw [List.getElem?_append_left hk]

theorem loop_cse : ∀ (ts : List Mux.Transform) (ids : List (Option Nat)) (added : List Nat)
    (g : Stable Mux.MuxOp Mux.MuxEdge), WellFormed g →
    (applyLoop (ts.map ofCse) ids added g).map (fun r => r.1.toGraph) = Mux.applyTransforms ts g.toGraph
  | [], ids, added, g, _ => rfl
  | .addEdge a b e :: ts, ids, added, g, hg => by
    have hw : ∀ i, g.toGraph.weight i = g.weight i := fun i => rfl
    rw [List.map_cons, applyLoop, Mux.applyTransforms]
    simp only [ofCse, applyOne, materialize, Stable.addEdge, Graph.addEdge, hw]
    by_cases hc : (g.weight a).isSome ∧ (g.weight b).isSome
    · rw [if_pos hc, if_pos hc]
      simp only [Option.map_some]
      refine loop_cse ts _ added ({ g with edges := (a, b, e) :: g.edges } : Stable _ _) ⟨hg.nodup, hg.free, ?_⟩
      intro x hx
      rcases List.mem_cons.1 hx with rfl | hx
      · exact hc
      · exact hg.edges x hx
    · rw [if_neg hc, if_neg hc]
      simp
  | .removeNode n :: ts, ids, added, g, hg => by
    rw [List.map_cons, applyLoop, Mux.applyTransforms]
    simp only [ofCse, applyOne, materialize]
    by_cases hc : (g.weight n).isSome
    · have := loop_cse ts (ids ++ [none]) added (g.removeNode n) (removeNode_spec hg hc).1
      rw [this]
      congr 1
      unfold Stable.removeNode Graph.removeNode Stable.toGraph
      rw [if_pos hc]
    · have h1 : g.removeNode n = g := by unfold Stable.removeNode; rw [if_neg hc]
      have hn : g.weight n = none := by simpa using hc
      rw [h1, loop_cse ts (ids ++ [none]) added g hg]
      congr 1
      unfold Graph.removeNode Stable.toGraph
      have hs : g.slots.set n none = g.slots := by
        apply List.ext_getElem?
        intro i
        by_cases hin : i = n
        · subst hin
          by_cases hl : i < g.slots.length
          · rw [List.getElem?_set_self hl]
            have hn : g.slots.getD i none = none := hn
            rw [List.getD_eq_getElem?_getD, List.getElem?_eq_getElem hl] at hn
            rw [List.getElem?_eq_getElem hl]
            simpa using hn.symm
          · rw [List.getElem?_eq_none (by simpa using hl), List.getElem?_eq_none (by omega)]
        · rw [List.getElem?_set_ne (by omega)]
      have he : g.edges.filter (fun e => !(e.1 == n) && !(e.2.1 == n)) = g.edges := by
        rw [List.filter_eq_self]
        intro e he
        have := hg.edges e he
        have h1 : e.1 ≠ n := fun h => by rw [h, hn] at this; simp at this
        have h2 : e.2.1 ≠ n := fun h => by rw [h, hn] at this; simp at this
        simp [h1, h2]
      simp only [hs, he]

/-- **C116, link to common-subexpression elimination.** On the transforms that optimisation issues, the general
`apply` is the function its correctness proof (C12) is about. -/
theorem C116_cse (ts : List Mux.Transform) (g : Stable Mux.MuxOp Mux.MuxEdge) (hg : WellFormed g) :
    (apply (ts.map ofCse) g).map (fun r => r.1.toGraph) = Mux.applyTransforms ts g.toGraph := by
  rw [← loop_cse ts [] [] g hg, apply, Option.map_map]
  rfl

/-! ### examples -/

/-- Nodes 0 (weight 10), 2 (weight 12) and 3 (weight 13), slot 1 vacant, edges 0 → 2 (twice) and 2 → 3. -/
def exStable : Stable Nat Nat := ⟨[some 10, none, some 12, some 13], [1], [(0, 2, 7), (2, 3, 6), (0, 2, 5)]⟩

theorem exStable_wf : WellFormed exStable := by
  refine ⟨by decide, fun i => ?_, by decide⟩
  simp only [exStable, Stable.weight, List.mem_singleton, List.length_cons, List.length_nil]
  constructor
  · rintro rfl; simp
  · rintro ⟨h, hw⟩
    have : i = 0 ∨ i = 1 ∨ i = 2 ∨ i = 3 := by omega
    rcases this with rfl | rfl | rfl | rfl <;> simp at hw ⊢

/-- Node 2 is removed; two nodes are added (one in slot 2, the other in slot 1) and joined between 0 and 3, with one
parallel edge taken out again. -/
def exTransforms : List (Transform Nat Nat) :=
  [.removeEdge (.node 0) (.node 2), .removeNode (.node 2), .addNode 20, .addNode 21,
   .addEdge (.node 0) (.deferred 2) 1, .addEdge (.deferred 2) (.deferred 3) 2, .addEdge (.deferred 3) (.node 3) 3,
   .addEdge (.deferred 3) (.node 3) 4, .removeEdge (.deferred 3) (.node 3)]

example : apply exTransforms exStable =
    some (⟨[some 10, some 21, some 20, some 13], [], [(1, 3, 3), (2, 1, 2), (0, 2, 1)]⟩, [2, 1]) := by decide

example : (Named.run 0 (Named.ofGraph exStable) exTransforms).isSome := by decide

example : apply [Transform.addEdge (.node 0) (.deferred 0) 1, .addNode 20] exStable = none :=
  C116_deferred exStable _ 0 _ rfl 0 (by simp [mentions]) (.inl (Nat.le_refl _))

example : apply [Transform.removeNode (.node 0), .removeNode (.deferred 0)] exStable = none :=
  C116_deferred exStable _ 1 _ rfl 0 (by simp [mentions]) (.inr (by simp))

/-- The names of C116 must be nodes when mentioned: a deferred index whose node has been removed is not rejected, and
after its slot is reused it designates the other node. Here the edge asked for between node 0 and the removed node
`deferred 0` (weight 20) joins node 0 to the node of weight 21. -/
theorem C116_stale :
    apply [.addNode 20, .removeNode (.deferred 0), .addNode 21, .addEdge (.node 0) (.deferred 0) 9] exStable =
      some (⟨[some 10, some 21, some 12, some 13], [], [(0, 1, 9), (0, 2, 7), (2, 3, 6), (0, 2, 5)]⟩, [1, 1]) := by
  decide

example : ∃ g' added, apply exTransforms exStable = some (g', added) ∧ g'.weight 3 = some 13 := by
  cases h : Named.run 0 (Named.ofGraph exStable) exTransforms with
  | none =>
    have : (Named.run 0 (Named.ofGraph exStable) exTransforms).isSome := by decide
    rw [h] at this; simp at this
  | some r => exact C116_untouched exStable exStable_wf exTransforms r h 3 13 rfl (by decide)

end Spf.Props
