import Verif.Proof.Cse
import Mathlib.Data.List.Perm.Subperm
/-! The traversal of the optimiser visits every node at most once, so it stops. -/
namespace Spf.Mux
open Spf.Spec Graph

theorem lt_of_weight {g : MGraph} {n} (h : (g.weight n).isSome) : n < g.nodes.length := by
  unfold weight at h
  by_contra hc
  rw [List.getD_eq_getElem?_getD, List.getElem?_eq_none (by omega)] at h
  cases h

structure TInv (len : Nat) (rs : List Nat × List Nat) : Prop where
  nodup : rs.1.Nodup
  lt : ∀ n ∈ rs.1, n < len

theorem TInv.le {len rs} (h : TInv len rs) : rs.1.length ≤ len := by
  have : rs.1.Subperm (List.range len) := by
    apply List.Nodup.subperm h.nodup
    intro x hx; exact List.mem_range.2 (h.lt x hx)
  simpa using this.length_le

theorem pushReady_spec (g : MGraph) (vis : List Nat) (len : Nat) : ∀ (is : List Nat) (rs : List Nat × List Nat),
    (∀ i ∈ is, i < len) → TInv len rs → TInv len (pushReady g vis is rs) ∧
    ∃ p, (pushReady g vis is rs).1.length = rs.1.length + p ∧ (pushReady g vis is rs).2.length = rs.2.length + p
  | [], rs, _, h => ⟨h, 0, rfl, rfl⟩
  | i :: is, (ready, stack), hi, h => by
    simp only [pushReady]
    split
    · rename_i hc
      simp only [Bool.and_eq_true, Bool.not_eq_true', List.contains_eq_mem, decide_eq_false_iff_not] at hc
      have h' : TInv len (i :: ready, i :: stack) := by
        constructor
        · exact List.nodup_cons.2 ⟨hc.1, h.nodup⟩
        · intro n hn
          rcases List.mem_cons.1 hn with rfl | hn
          · exact hi _ List.mem_cons_self
          · exact h.lt n hn
      obtain ⟨h1, p, h2, h3⟩ := pushReady_spec g vis len is _ (fun j hj => hi j (List.mem_cons_of_mem _ hj)) h'
      refine ⟨h1, p + 1, ?_, ?_⟩
      · rw [h2]; simp only [List.length_cons]; omega
      · rw [h3]; simp only [List.length_cons]; omega
    · exact pushReady_spec g vis len is _ (fun j hj => hi j (List.mem_cons_of_mem _ hj)) h

theorem succs_lt {g : MGraph} (hl : ∀ e ∈ g.edges, (g.weight e.1).isSome ∧ (g.weight e.2.1).isSome) {n i}
    (h : i ∈ g.succs n) : i < g.nodes.length := by
  unfold succs outEdges at h
  simp only [List.mem_map, List.mem_filter] at h
  obtain ⟨e, ⟨he, _⟩, rfl⟩ := h
  exact lt_of_weight (hl e he).2

theorem iter_measure {g0 : MGraph} {st st' : TState} {n} (h : CseInv g0 st.g)
    (ht : TInv g0.nodes.length (st.ready, st.stack)) (hi : cseIter st n = some st') :
    TInv g0.nodes.length (st'.ready, st'.stack) ∧
    ∃ p, st'.ready.length = st.ready.length + p ∧ st'.stack.length = st.stack.length + p := by
  have hI := h.iter hi
  unfold cseIter at hi
  simp only at hi
  split at hi
  · cases hi; exact ⟨ht, 0, rfl, rfl⟩
  · split at hi
    · cases hi
    · rename_i ts hts
      split at hi
      · cases hi
      · rename_i g hg
        cases hi
        simp only at hI
        have s1 : ∀ i ∈ st.g.succs n, i < g0.nodes.length := fun i hm => by
          have := succs_lt h.live hm; rwa [h.len] at this
        have s2 : ∀ i ∈ g.succs n, i < g0.nodes.length := fun i hm => by
          have := succs_lt hI.live hm; rwa [hI.len] at this
        by_cases hsome : (g.weight n).isSome
        · simp only [hsome, if_true]
          obtain ⟨t1, p1, a1, b1⟩ := pushReady_spec g (n :: st.visited) g0.nodes.length _ _ s2 ht
          obtain ⟨t2, p2, a2, b2⟩ := pushReady_spec g (n :: st.visited) g0.nodes.length _ _ s1 t1
          exact ⟨t2, p1 + p2, by rw [a2, a1]; simp only; omega, by rw [b2, b1]; simp only; omega⟩
        · simp only [hsome]
          exact pushReady_spec g (n :: st.visited) g0.nodes.length _ _ s1 ht

theorem loop_stops {g0 : MGraph} : ∀ (fuel : Nat) {st st' : TState}, CseInv g0 st.g →
    TInv g0.nodes.length (st.ready, st.stack) → g0.nodes.length + st.stack.length ≤ fuel + st.ready.length →
    cseLoop fuel st = some st' → st'.stack = []
  | 0, st, st', h, ht, hf, hi => by
    cases hi
    have := ht.le
    simp only at this
    exact List.eq_nil_of_length_eq_zero (by omega)
  | fuel + 1, st, st', h, ht, hf, hi => by
    simp only [cseLoop] at hi
    split at hi
    · cases hi; assumption
    · rename_i n rest hs
      split at hi
      · cases hi
      · rename_i st1 h1
        have ht' : TInv g0.nodes.length (st.ready, rest) := ⟨ht.nodup, ht.lt⟩
        obtain ⟨t1, p, a, b⟩ := iter_measure (st := { st with stack := rest }) h ht' h1
        simp only at a b
        rw [hs] at hf
        simp only [List.length_cons] at hf
        exact loop_stops fuel (CseInv.iter (st := { st with stack := rest }) h h1) t1 (by omega) hi

theorem cse_stops {g : MGraph} (h : WF g) {st'} (hi : cseLoop g.nodes.length (initState g) = some st') :
    st'.stack = [] := by
  apply loop_stops g.nodes.length (st := initState g) (CseInv.refl h.toComplete) _ _ hi
  · constructor
    · simp only [initState]
      exact (List.reverse_perm _).symm.nodup (((List.nodup_range).filter _).filter _)
    · intro n hn
      simp only [initState, List.mem_reverse, List.mem_filter, indices, List.mem_range] at hn
      exact hn.1.1
  · simp [initState]

end Spf.Mux
