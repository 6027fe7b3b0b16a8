import Verif.Proof.FromBdd
import Verif.Proof.CseReduced
/-! Circuits converted from reduced ordered diagrams are reduced and ordered. -/
namespace Spf.Mux
open Spf.Spec Graph

/-- graph node `m` stands for node `j` of diagram `i` -/
def At (loc : Nat → Nat × Nat) (g : BGraph) (m i j : Nat) : Prop :=
  (j = 0 ∧ ∃ v, g.weight m = some (.zero, v)) ∨ (j = 1 ∧ ∃ v, g.weight m = some (.one, v)) ∨
  (2 ≤ j ∧ (∃ v, g.weight m = some (.mux, v)) ∧ loc m = (i, j))

theorem At.fn {loc g m i j j'} (h : At loc g m i j) (h' : At loc g m i j') : j = j' := by
  rcases h with ⟨rfl, v, h⟩ | ⟨rfl, v, h⟩ | ⟨h1, ⟨v, h2⟩, h3⟩ <;> rcases h' with ⟨rfl, v', h'⟩ | ⟨rfl, v', h'⟩ | ⟨h1', ⟨v', h2'⟩, h3'⟩ <;>
    first | rfl | (rw [h] at h'; cases h'; done) | (rw [h2] at h'; cases h'; done) | (rw [h] at h2'; cases h2'; done) | skip
  rw [h3] at h3'
  simpa using h3'

theorem At.mono {loc loc' g g' m i j} (h : At loc g m i j) (hw : ∀ n x, g.weight n = some x → g'.weight n = some x)
    (hl : ∀ n v, g.weight n = some (.mux, v) → loc' n = loc n) : At loc' g' m i j := by
  rcases h with ⟨rfl, v, h⟩ | ⟨rfl, v, h⟩ | ⟨h1, ⟨v, h2⟩, h3⟩
  · exact Or.inl ⟨rfl, v, hw _ _ h⟩
  · exact Or.inr (Or.inl ⟨rfl, v, hw _ _ h⟩)
  · exact Or.inr (Or.inr ⟨h1, ⟨v, hw _ _ h2⟩, by rw [hl _ _ h2, h3]⟩)

/-- the multiplexers so far are the inner nodes of diagrams, one each -/
structure LInv (bdds : List (List BddNode)) (i k : Nat) (loc : Nat → Nat × Nat) (st : BState) : Prop where
  node : ∀ n v, st.g.weight n = some (.mux, v) → ∃ recs r, bdds[(loc n).1]? = some recs ∧ 2 ≤ (loc n).2 ∧ recs[(loc n).2]? = some r ∧ v = r.var ∧
    ∀ m kd, (m, n, kd) ∈ st.g.edges → (kd = .low ∧ At loc st.g m (loc n).1 r.low) ∨ (kd = .high ∧ At loc st.g m (loc n).1 r.high)
  inj : ∀ n n' v v', st.g.weight n = some (.mux, v) → st.g.weight n' = some (.mux, v') → loc n = loc n' → n = n'
  bound : ∀ n v, st.g.weight n = some (.mux, v) → (loc n).1 < i ∨ ((loc n).1 = i ∧ (loc n).2 < k)
  zero : ∀ n v, st.g.weight n = some (.zero, v) → st.zero = some n
  one : ∀ n v, st.g.weight n = some (.one, v) → st.one = some n

theorem LInv.leaf {bdds i k loc st nv nOut} (L : LInv bdds i k loc st) (G : GInv nv nOut st.g) {k' i' : Nat} {x : MuxOp × Nat} {es} {st' : BState}
    (hg : st'.g = ext st.g x es) (hx : x.1 ≠ .mux) (hes : ∀ e ∈ es, e.2.1 = st.g.nodes.length)
    (hb : ∀ a b : Nat, (a < i ∨ (a = i ∧ b < k)) → (a < i' ∨ (a = i' ∧ b < k')))
    (hz : (x.1 ≠ .zero ∧ st'.zero = st.zero) ∨ (x.1 = .zero ∧ st.zero = none ∧ st'.zero = some st.g.nodes.length))
    (ho : (x.1 ≠ .one ∧ st'.one = st.one) ∨ (x.1 = .one ∧ st.one = none ∧ st'.one = some st.g.nodes.length)) : LInv bdds i' k' loc st' := by
  have old : ∀ n v, st'.g.weight n = some (.mux, v) → st.g.weight n = some (.mux, v) := by
    intro n v h
    rw [hg] at h
    rcases (ext_weight _ _ _).1 h with h | ⟨_, h⟩
    · exact h
    · exact absurd (by rw [← h]) hx
  have up : ∀ n y, st.g.weight n = some y → st'.g.weight n = some y := by
    intro n y h; rw [hg]; exact (ext_weight _ _ _).2 (Or.inl h)
  refine ⟨?_, ?_, ?_, ?_, ?_⟩
  · intro n v h
    have h := old n v h
    obtain ⟨recs, r, a1, a2, a3, a4, a5⟩ := L.node n v h
    refine ⟨recs, r, a1, a2, a3, a4, ?_⟩
    intro m kd hm
    rw [hg] at hm
    rcases List.mem_append.1 hm with hm | hm
    · have := hes _ hm
      have h2 := blt_of_weight h
      simp only at this; omega
    · rcases a5 m kd hm with ⟨b1, b2⟩ | ⟨b1, b2⟩
      · exact Or.inl ⟨b1, b2.mono up fun _ _ _ => rfl⟩
      · exact Or.inr ⟨b1, b2.mono up fun _ _ _ => rfl⟩
  · intro n n' v v' h h' hl; exact L.inj n n' v v' (old _ _ h) (old _ _ h') hl
  · intro n v h; exact hb _ _ (L.bound n v (old _ _ h))
  · intro n v h
    rw [hg] at h
    rcases (ext_weight _ _ _).1 h with h | ⟨h1, h2⟩
    · rcases hz with ⟨_, hz⟩ | ⟨_, hz, _⟩
      · rw [hz]; exact L.zero n v h
      · rw [L.zero n v h] at hz; cases hz
    · rcases hz with ⟨hz, _⟩ | ⟨_, _, hz⟩
      · exact absurd (by rw [← h2]) hz
      · rw [hz, h1]
  · intro n v h
    rw [hg] at h
    rcases (ext_weight _ _ _).1 h with h | ⟨h1, h2⟩
    · rcases ho with ⟨_, hz⟩ | ⟨_, hz, _⟩
      · rw [hz]; exact L.one n v h
      · rw [L.one n v h] at hz; cases hz
    · rcases ho with ⟨hz, _⟩ | ⟨_, _, hz⟩
      · exact absurd (by rw [← h2]) hz
      · rw [hz, h1]

theorem LInv.same {bdds i k loc st st' i' k'} (L : LInv bdds i k loc st) (hg : st'.g = st.g) (hz : st'.zero = st.zero) (ho : st'.one = st.one)
    (hb : ∀ a b : Nat, (a < i ∨ (a = i ∧ b < k)) → (a < i' ∨ (a = i' ∧ b < k'))) : LInv bdds i' k' loc st' := by
  refine ⟨?_, ?_, ?_, ?_, ?_⟩
  · rw [hg]; exact L.node
  · rw [hg]; exact L.inj
  · rw [hg]; exact fun n v h => hb _ _ (L.bound n v h)
  · rw [hg, hz]; exact L.zero
  · rw [hg, ho]; exact L.one

def AddedAt (loc : Nat → Nat × Nat) (i : Nat) (st : BState) : Prop := ∀ (j n : Nat), st.added[j]? = some n → At loc st.g n i j

theorem AddedAt.push {loc loc' : Nat → Nat × Nat} {i : Nat} {st st' : BState} {n : Nat} (h : AddedAt loc i st) (hw : ∀ n x, st.g.weight n = some x → st'.g.weight n = some x)
    (hl : ∀ n v, st.g.weight n = some (.mux, v) → loc' n = loc n) (ha : st'.added = st.added ++ [n]) (hn : At loc' st'.g n i st.added.length) : AddedAt loc' i st' := by
  intro j m hj
  rw [ha] at hj
  by_cases hlt : j < st.added.length
  · rw [List.getElem?_append_left hlt] at hj
    exact (h j m hj).mono hw hl
  · rw [List.getElem?_append_right (by omega)] at hj
    have : j - st.added.length = 0 := by
      have := (List.getElem?_eq_some_iff.1 hj).1
      simp at this; omega
    rw [this] at hj
    simp at hj
    rw [← hj, show j = st.added.length by omega]; exact hn

theorem nodeLoc {nv nOut bdds i recs k st st'} (hv : ValidBdd nv recs) (hb : bdds[i]? = some recs) (D : DInv nv nOut recs k st) {loc} (L : LInv bdds i k loc st)
    (A : AddedAt loc i st) {nd} (hnd : recs[k]? = some nd) (hs : NS nv k nd st st') : ∃ loc', LInv bdds i (k + 1) loc' st' ∧ AddedAt loc' i st' := by
  have hbb : ∀ a b : Nat, (a < i ∨ (a = i ∧ b < k)) → (a < i ∨ (a = i ∧ b < k + 1)) := by intro a b; omega
  rcases hs with ⟨rfl, ho, h⟩ | ⟨rfl, hz, h⟩ | ⟨h2, hz, ho, ha, lo, hi, hlo, hhi, hg⟩
  · rcases h with ⟨z, z1, hg, hz, ha⟩ | ⟨z1, hg, hz, ha⟩
    · refine ⟨loc, L.same hg hz ho hbb, A.push (by rw [hg]; exact fun _ _ h => h) (fun _ _ _ => rfl) ha ?_⟩
      rw [D.len, hg]
      obtain ⟨v, hv⟩ := D.zero z z1
      exact Or.inl ⟨rfl, v, hv⟩
    · refine ⟨loc, L.leaf D.g hg (by simp) (by simp) hbb (Or.inr ⟨rfl, z1, hz⟩) (Or.inl ⟨by simp, ho⟩), A.push (by rw [hg]; exact (Ext.ext _ _ _).1) (fun _ _ _ => rfl) ha ?_⟩
      rw [D.len, hg]
      exact Or.inl ⟨rfl, _, ext_weight_new _ _ _⟩
  · rcases h with ⟨z, z1, hg, ho, ha⟩ | ⟨z1, hg, ho, ha⟩
    · refine ⟨loc, L.same hg hz ho hbb, A.push (by rw [hg]; exact fun _ _ h => h) (fun _ _ _ => rfl) ha ?_⟩
      rw [D.len, hg]
      obtain ⟨v, hv⟩ := D.one z z1
      exact Or.inr (Or.inl ⟨rfl, v, hv⟩)
    · refine ⟨loc, L.leaf D.g hg (by simp) (by simp) hbb (Or.inl ⟨by simp, hz⟩) (Or.inr ⟨rfl, z1, ho⟩), A.push (by rw [hg]; exact (Ext.ext _ _ _).1) (fun _ _ _ => rfl) ha ?_⟩
      rw [D.len, hg]
      exact Or.inr (Or.inl ⟨rfl, _, ext_weight_new _ _ _⟩)
  · have N : st.g.weight st.g.nodes.length = none := by
      unfold weight; rw [List.getD_eq_getElem?_getD, List.getElem?_eq_none (Nat.le_refl _)]; rfl
    let loc' : Nat → Nat × Nat := fun n => if n = st.g.nodes.length then (i, k) else loc n
    have lnew : loc' st.g.nodes.length = (i, k) := if_pos rfl
    have lold : ∀ n v, st.g.weight n = some v → loc' n = loc n := by
      intro n v h
      refine if_neg ?_
      rintro rfl; rw [N] at h; cases h
    have up : ∀ n y, st.g.weight n = some y → st'.g.weight n = some y := by
      intro n y h; rw [hg]; exact (ext_weight _ _ _).2 (Or.inl h)
    have A' : AddedAt loc' i st' := by
      refine A.push up (fun n v h => lold n _ h) ha ?_
      rw [D.len, hg]
      exact Or.inr (Or.inr ⟨h2, ⟨_, ext_weight_new _ _ _⟩, lnew⟩)
    have cases' : ∀ n v, st'.g.weight n = some (.mux, v) → st.g.weight n = some (.mux, v) ∨ (n = st.g.nodes.length ∧ v = nd.var) := by
      intro n v h
      rw [hg] at h
      rcases (ext_weight _ _ _).1 h with h | ⟨h1, h2⟩
      · exact Or.inl h
      · cases h2; exact Or.inr ⟨h1, rfl⟩
    refine ⟨loc', ⟨?_, ?_, ?_, ?_, ?_⟩, A'⟩
    · intro n v h
      rcases cases' n v h with h | ⟨rfl, rfl⟩
      · obtain ⟨recs', r, a1, a2, a3, a4, a5⟩ := L.node n v h
        rw [lold n _ h]
        refine ⟨recs', r, a1, a2, a3, a4, ?_⟩
        intro m kd hm
        rw [hg] at hm
        rcases List.mem_append.1 hm with hm | hm
        · have h3 := blt_of_weight h
          simp only [List.mem_cons, Prod.mk.injEq, List.not_mem_nil, or_false] at hm
          omega
        · rcases a5 m kd hm with ⟨b1, b2⟩ | ⟨b1, b2⟩
          · exact Or.inl ⟨b1, b2.mono up fun n v h => lold n _ h⟩
          · exact Or.inr ⟨b1, b2.mono up fun n v h => lold n _ h⟩
      · rw [lnew]
        refine ⟨recs, nd, hb, h2, hnd, rfl, ?_⟩
        intro m kd hm
        rw [hg] at hm
        obtain ⟨c1, c2, -, -⟩ := hv.inner k nd h2 hnd
        have get : ∀ c x, c < k → st.added[c]? = some x → st'.added[c]? = some x := by
          intro c x hc hx; rw [ha, List.getElem?_append_left (by rw [D.len]; exact hc)]; exact hx
        rcases List.mem_append.1 hm with hm | hm
        · simp only [List.mem_cons, Prod.mk.injEq, List.not_mem_nil, or_false] at hm
          rcases hm with ⟨rfl, -, rfl⟩ | ⟨rfl, -, rfl⟩
          · exact Or.inr ⟨rfl, A' _ _ (get _ _ c2 hhi)⟩
          · exact Or.inl ⟨rfl, A' _ _ (get _ _ c1 hlo)⟩
        · have := (D.g.edge _ hm).2.1
          simp only at this; omega
    · intro n n' v v' h h' hl
      rcases cases' n v h with h | ⟨rfl, rfl⟩ <;> rcases cases' n' v' h' with h' | ⟨rfl, rfl⟩
      · rw [lold n _ h, lold n' _ h'] at hl
        exact L.inj n n' v v' h h' hl
      · rw [lold n _ h, lnew] at hl
        have := L.bound n v h
        rw [hl] at this; simp only at this; omega
      · rw [lold n' _ h', lnew] at hl
        have := L.bound n' v' h'
        rw [← hl] at this; simp only at this; omega
      · rfl
    · intro n v h
      rcases cases' n v h with h | ⟨rfl, rfl⟩
      · rw [lold n _ h]; exact hbb _ _ (L.bound n v h)
      · rw [lnew]; right; exact ⟨rfl, by simp⟩
    · intro n v h
      rw [hg] at h
      rcases (ext_weight _ _ _).1 h with h | ⟨h1, h2⟩
      · rw [hz]; exact L.zero n v h
      · cases h2
    · intro n v h
      rw [hg] at h
      rcases (ext_weight _ _ _).1 h with h | ⟨h1, h2⟩
      · rw [ho]; exact L.one n v h
      · cases h2

theorem nodesLoc {nv nOut bdds i recs} (hv : ValidBdd nv recs) (hb : bdds[i]? = some recs) : ∀ (m k : Nat) (st : BState) (loc), k + m = recs.length →
    DInv nv nOut recs k st → LInv bdds i k loc st → AddedAt loc i st →
    ∃ st' loc', bddNodes st (recs.drop k) = some st' ∧ DInv nv nOut recs recs.length st' ∧ LInv bdds i recs.length loc' st'
  | 0, k, st, loc, hk, h, L, A => by
    have : k = recs.length := by omega
    subst this
    exact ⟨st, loc, by simp [bddNodes], h, L⟩
  | m + 1, k, st, loc, hk, h, L, A => by
    have hkl : k < recs.length := by omega
    obtain ⟨st1, h1, h2, -, h3⟩ := nodeStep hv h (nd := recs[k]) (by simp)
    obtain ⟨loc1, L1, A1⟩ := nodeLoc hv hb h L A (by simp) h3
    obtain ⟨st', loc', h4, h5, h6⟩ := nodesLoc hv hb m (k + 1) st1 loc1 (by omega) h2 L1 A1
    refine ⟨st', loc', ?_, h5, h6⟩
    rw [List.drop_eq_getElem_cons hkl]
    simp only [bddNodes, h1]
    exact h4

theorem bddsLoc {nv} {bdds : List (List BddNode)} (hv : ∀ b ∈ bdds, ValidBdd nv b) : ∀ (rest : List (List BddNode)) (i : Nat) (st st' : BState) (loc), bdds.drop i = rest →
    SInv nv i st → LInv bdds i 0 loc st → bddAll st i rest = some st' → ∃ loc', LInv bdds (i + rest.length) 0 loc' st'
  | [], i, st, st', loc, _, h, L, hs => by cases hs; exact ⟨loc, L⟩
  | b :: bs, i, st, st', loc, hd, h, L, hs => by
    have hib : bdds[i]? = some b := by
      have := congrArg (fun l => l[0]?) hd
      simpa using this
    have hvb := hv b (List.mem_of_getElem? hib)
    have hpos : 0 < b.length := (List.getElem?_eq_some_iff.1 hvb.leaf0).1
    obtain ⟨st1, a1, a2, -⟩ := diagramStep hvb h
    simp only [bddAll, a1] at hs
    have h0 : DInv nv i b 0 { st with added := [], last := 0 } :=
      ⟨⟨h.g, h.zero, h.one, h.maxI⟩, rfl, by simp, by simp, by simp⟩
    obtain ⟨st2, loc2, c1, c2, c3⟩ := nodesLoc hvb hib b.length 0 _ loc (by simp) h0 (L.same rfl rfl rfl fun _ _ h => h) (by intro j n hj; simp at hj)
    rw [List.drop_zero] at c1
    have hne : b ≠ [] := by rintro rfl; simp at hpos
    simp only [bddStep, if_neg hne, c1, addNode] at a1
    cases he : Graph.addEdge (⟨st2.g.nodes ++ [some (MuxOp.output i, 0)], st2.g.edges⟩ : BGraph) st2.last st2.g.nodes.length .output with
    | none => rw [he] at a1; cases a1
    | some g' =>
      rw [he] at a1
      simp only [Option.some.injEq] at a1
      have hg' : g' = ext st2.g (.output i, 0) [(st2.last, st2.g.nodes.length, .output)] := by
        unfold Graph.addEdge at he
        by_cases hc : ((⟨st2.g.nodes ++ [some (MuxOp.output i, 0)], st2.g.edges⟩ : BGraph).weight st2.last).isSome ∧
            ((⟨st2.g.nodes ++ [some (MuxOp.output i, 0)], st2.g.edges⟩ : BGraph).weight st2.g.nodes.length).isSome
        · rw [if_pos hc] at he
          exact (Option.some.inj he).symm
        · rw [if_neg hc] at he; cases he
      have L1 : LInv bdds (i + 1) 0 loc2 st1 := by
        rw [← a1]
        exact c3.leaf c2.g (x := (.output i, 0)) hg' (by simp) (by simp) (by intro a b; omega) (Or.inl ⟨by simp, rfl⟩) (Or.inl ⟨by simp, rfl⟩)
      obtain ⟨loc', L'⟩ := bddsLoc hv bs (i + 1) st1 st' loc2 (by rw [← List.drop_drop, hd]; rfl) a2 L1 hs
      exact ⟨loc', by rw [List.length_cons, show i + (bs.length + 1) = i + 1 + bs.length by omega]; exact L'⟩

/-- circuits converted from reduced ordered diagrams are reduced and ordered -/
theorem fromBdds_reduced {nv} {bdds : List (List BddNode)} (hv : ∀ b ∈ bdds, ReducedBdd nv b) (hne : bdds ≠ []) :
    ∃ c, fromBdds bdds = some c ∧ WF c.graph ∧ Computes c nv (bdds.map bddFn) ∧ SelectorsOnly c.graph ∧ (∃ dia, Reduced c.graph dia) ∧ Ordered c.graph := by
  have hv' : ∀ b ∈ bdds, ValidBdd nv b := fun b hb => (hv b hb).toValidBdd
  obtain ⟨c, h1, h2, h3, h4, st, h5, h6, hW, hE⟩ := fromBdds_full hv' hne
  obtain ⟨loc, L⟩ := bddsLoc hv' bdds 0 bst0 st (fun _ => (0, 0)) (by simp) (SInv.init nv)
    ⟨by simp [bst0, Graph.empty, weight], by simp [bst0, Graph.empty, weight], by simp [bst0, Graph.empty, weight], by simp [bst0, Graph.empty, weight], by simp [bst0, Graph.empty, weight]⟩ h5
  have gi := h6.g
  have old : ∀ n op, (∀ i, op ≠ .variable i) → c.graph.weight n = some op → ∃ v, st.g.weight n = some (op, v) := by
    intro n op hop h
    rcases (hW _ _).1 h with h | ⟨i, _, _, h⟩
    · exact h
    · exact absurd h (hop i)
  have novar : ∀ n i v, st.g.weight n ≠ some (.variable i, v) := fun n i v h => absurd (gi.node _ _ h) (by simp [NOK])
  -- data edges and select edges
  have data : ∀ m n kd v, (m, n, kd) ∈ c.graph.edges → kd ≠ .select → st.g.weight n = some (.mux, v) → (m, n, kd) ∈ st.g.edges := by
    intro m n kd v hm hk hn
    rcases hE _ hm with ⟨v, _, h, _⟩ | h
    · simp only [Prod.mk.injEq] at h; exact absurd h.2.2 hk
    · exact h
  have sel : ∀ s n v, (s, n, MuxEdge.select) ∈ c.graph.edges → st.g.weight n = some (.mux, v) → s = st.g.nodes.length + v := by
    intro s n v hm hn
    rcases hE _ hm with ⟨w, _, h, h'⟩ | h
    · simp only [Prod.mk.injEq] at h h'
      rw [hn] at h'
      cases h'
      exact h.1
    · obtain ⟨recs, r, -, -, -, -, a5⟩ := L.node n v hn
      rcases a5 s _ h with ⟨hc, _⟩ | ⟨hc, _⟩ <;> cases hc
  have target : ∀ m n kd, (m, n, kd) ∈ c.graph.edges → kd ≠ .output → ∃ v, st.g.weight n = some (.mux, v) := by
    intro m n kd hm hk
    obtain ⟨op, hop⟩ := Option.isSome_iff_exists.1 (h2.live _ hm).2
    have := h2.kind _ hm op hop
    simp only at hop this
    have hop' : op = .mux := by cases op <;> cases kd <;> simp [KindOK] at this hk ⊢
    subst hop'
    exact old _ _ (by simp) hop
  have child : ∀ m n kd v, (m, n, kd) ∈ st.g.edges → c.graph.weight m = some .mux → st.g.weight n = some (.mux, v) →
      ∃ recs r r', bdds[(loc n).1]? = some recs ∧ 2 ≤ (loc n).2 ∧ 2 ≤ (loc m).2 ∧ recs[(loc n).2]? = some r ∧ recs[(loc m).2]? = some r' ∧ v = r.var ∧
        st.g.weight m = some (.mux, r'.var) ∧ (loc m).1 = (loc n).1 ∧ ((loc m).2 = r.low ∨ (loc m).2 = r.high) := by
    intro m n kd v hm hmm hn
    obtain ⟨vm, hvm⟩ := old _ _ (by simp) hmm
    obtain ⟨recs, r, a1, a2, a3, a4, a5⟩ := L.node n v hn
    obtain ⟨recs', r', b1, b2, b3, b4, -⟩ := L.node m vm hvm
    have key : ∀ j, At loc st.g m (loc n).1 j → loc m = ((loc n).1, j) := by
      intro j hj
      rcases hj with ⟨_, v, h⟩ | ⟨_, v, h⟩ | ⟨_, _, h⟩
      · rw [hvm] at h; cases h
      · rw [hvm] at h; cases h
      · exact h
    have : (loc m).1 = (loc n).1 ∧ ((loc m).2 = r.low ∨ (loc m).2 = r.high) := by
      rcases a5 m kd hm with ⟨_, h⟩ | ⟨_, h⟩
      · rw [key _ h]; exact ⟨rfl, Or.inl rfl⟩
      · rw [key _ h]; exact ⟨rfl, Or.inr rfl⟩
    rw [this.1, a1] at b1
    cases b1
    exact ⟨recs, r, r', a1, a2, b2, a3, b3, a4, by rw [hvm, b4], this.1, this.2⟩
  refine ⟨c, h1, h2, h3, h4, ⟨fun n => (loc n).1, ⟨?_, ?_, ?_, ?_⟩⟩, ?_⟩
  · intro a n k hm ha hn
    obtain ⟨vn, hvn⟩ := old _ _ (by simp) hn
    have hk : k ≠ .select := by
      rintro rfl
      obtain ⟨i, hi⟩ := (h4 _ hm).1 rfl
      rw [ha] at hi; cases hi
    obtain ⟨_, _, _, -, -, -, -, -, -, -, h, -⟩ := child a n k vn (data _ _ _ _ hm hk hvn) ha hvn
    exact h
  · intro n n' s l h hn hn' hd hs hl hh hs' hl' hh'
    obtain ⟨v, hvn⟩ := old _ _ (by simp) hn
    obtain ⟨v', hvn'⟩ := old _ _ (by simp) hn'
    obtain ⟨recs, r, a1, a2, a3, a4, a5⟩ := L.node n v hvn
    obtain ⟨recs', r', b1, b2, b3, b4, b5⟩ := L.node n' v' hvn'
    rw [← hd, a1] at b1
    cases b1
    have ev : v = v' := by
      have e1 := sel _ _ _ hs hvn
      have e2 := sel _ _ _ hs' hvn'
      omega
    have lowAt : ∀ n v, st.g.weight n = some (.mux, v) → ∀ r : BddNode, (∀ m kd, (m, n, kd) ∈ st.g.edges → (kd = .low ∧ At loc st.g m (loc n).1 r.low) ∨ (kd = .high ∧ At loc st.g m (loc n).1 r.high)) →
        ∀ l h, (l, n, MuxEdge.low) ∈ c.graph.edges → (h, n, MuxEdge.high) ∈ c.graph.edges → At loc st.g l (loc n).1 r.low ∧ At loc st.g h (loc n).1 r.high := by
      intro n v hv r hr l h hl hh
      constructor
      · rcases hr _ _ (data _ _ _ _ hl (by simp) hv) with ⟨_, h⟩ | ⟨h, _⟩
        · exact h
        · cases h
      · rcases hr _ _ (data _ _ _ _ hh (by simp) hv) with ⟨h, _⟩ | ⟨_, h⟩
        · cases h
        · exact h
    obtain ⟨x1, x2⟩ := lowAt n v hvn r a5 l h hl hh
    obtain ⟨y1, y2⟩ := lowAt n' v' hvn' r' b5 l h hl' hh'
    rw [← hd] at y1 y2
    have hr : r = r' := by
      obtain ⟨p, q, t⟩ := r
      obtain ⟨p', q', t'⟩ := r'
      simp only at a4 b4 x1 x2 y1 y2
      rw [← a4, ← b4, ev, x1.fn y1, x2.fn y2]
    subst hr
    have hj := (hv recs (List.mem_of_getElem? a1)).unique _ _ _ a2 b2 a3 b3
    exact L.inj n n' v v' hvn hvn' (Prod.ext hd hj)
  · intro n l h hl hh hlh
    subst hlh
    obtain ⟨v, hvn⟩ := target _ _ _ hl (by simp)
    obtain ⟨recs, r, a1, a2, a3, a4, a5⟩ := L.node n v hvn
    have e1 : At loc st.g l (loc n).1 r.low := by
      rcases a5 _ _ (data _ _ _ _ hl (by simp) hvn) with ⟨_, h⟩ | ⟨h, _⟩
      · exact h
      · cases h
    have e2 : At loc st.g l (loc n).1 r.high := by
      rcases a5 _ _ (data _ _ _ _ hh (by simp) hvn) with ⟨h, _⟩ | ⟨_, h⟩
      · cases h
      · exact h
    exact ((hv recs (List.mem_of_getElem? a1)).inner _ r a2 a3).2.2.1 (e1.fn e2)
  · intro n n' op hop hn hn'
    rcases (hW _ _).1 hn with ⟨v, h⟩ | ⟨i, _, e1, e2⟩
    · rcases (hW _ _).1 hn' with ⟨v', h'⟩ | ⟨i', _, e1', e2'⟩
      · cases op with
        | zero => have := L.zero _ _ h; rw [L.zero _ _ h'] at this; exact (Option.some.inj this).symm
        | one => have := L.one _ _ h; rw [L.one _ _ h'] at this; exact (Option.some.inj this).symm
        | mux => exact absurd rfl hop
        | «variable» i => exact absurd h (novar _ _ _)
        | output i => exact gi.outU _ _ _ _ _ h h'
      · subst e2'; exact absurd h (novar _ _ _)
    · subst e2
      rcases (hW _ _).1 hn' with ⟨v', h'⟩ | ⟨i', _, e1', e2'⟩
      · exact absurd h' (novar _ _ _)
      · cases e2'; rw [e1, e1']
  · intro m n k s s' i j hm hk hmm hs hi hs' hj
    obtain ⟨vn, hvn⟩ := target _ _ _ hs (by simp)
    obtain ⟨recs, r, r', a1, a2, a3, a4, a5, a6, a7, -, a9⟩ := child m n k vn (data _ _ _ _ hm hk hvn) hmm hvn
    have e1 := sel _ _ _ hs hvn
    have e2 := sel _ _ _ hs' a7
    have vi : ∀ x q p, x = st.g.nodes.length + p → c.graph.weight x = some (.variable q) → p = q := by
      intro x q p hx hq
      rcases (hW _ _).1 hq with ⟨v, h⟩ | ⟨q', _, e, e'⟩
      · exact absurd h (novar _ _ _)
      · cases e'; omega
    have w1 := vi _ _ _ e1 hi
    have w2 := vi _ _ _ e2 hj
    have := (hv recs (List.mem_of_getElem? a1)).ordered _ _ r r' a2 a3 a4 a5 a9
    omega

theorem compact_sel {g : MGraph} (h : WF g) (hs : SelectorsOnly g) : SelectorsOnly (compactGraph g) := by
  intro e he
  simp only [compactGraph, List.mem_map] at he
  obtain ⟨⟨a, b, k⟩, hm, rfl⟩ := he
  simp only
  rw [show (k = MuxEdge.select) ↔ ∃ i, g.weight a = some (.variable i) from hs _ hm]
  constructor
  · rintro ⟨i, hi⟩; exact ⟨i, compact_weight hi⟩
  · rintro ⟨i, hi⟩
    obtain ⟨a', h1, h2⟩ := compact_weight_inv hi
    obtain ⟨op, hop⟩ := Option.isSome_iff_exists.1 (h.live _ hm).1
    have := compact_inj' (i := a) hop h1 h2.symm
    rw [this]
    exact ⟨i, h1⟩

theorem compact_ordered {g : MGraph} (h : WF g) (ho : Ordered g) : Ordered (compactGraph g) := by
  have pre : ∀ m n k, (m, n, k) ∈ (compactGraph g).edges → ∃ a b, compactIndex g.nodes a = m ∧ compactIndex g.nodes b = n ∧ (a, b, k) ∈ g.edges := by
    intro m n k he
    simp only [compactGraph, List.mem_map, Prod.mk.injEq] at he
    obtain ⟨⟨a, b, c⟩, hm, h1, h2, rfl⟩ := he
    exact ⟨a, b, h1, h2, hm⟩
  have wt : ∀ a op, (g.weight a).isSome → (compactGraph g).weight (compactIndex g.nodes a) = some op → g.weight a = some op := by
    intro a op ha h1
    obtain ⟨a', h2, h3⟩ := compact_weight_inv h1
    obtain ⟨op', hop⟩ := Option.isSome_iff_exists.1 ha
    rw [compact_inj' hop h2 h3.symm]; exact h2
  have inj : ∀ a b, (g.weight a).isSome → (g.weight b).isSome → compactIndex g.nodes a = compactIndex g.nodes b → a = b := by
    intro a b ha hb h1
    obtain ⟨_, h2⟩ := Option.isSome_iff_exists.1 ha
    obtain ⟨_, h3⟩ := Option.isSome_iff_exists.1 hb
    exact compact_inj' h2 h3 h1
  intro m n k s s' i j hm hk hmm hs hi hs' hj
  obtain ⟨m0, n0, rfl, rfl, e1⟩ := pre _ _ _ hm
  obtain ⟨s0, n1, rfl, h1, e2⟩ := pre _ _ _ hs
  obtain ⟨s1, m1, rfl, h2, e3⟩ := pre _ _ _ hs'
  have hn := inj _ _ (h.live _ e2).2 (h.live _ e1).2 h1
  have hm' := inj _ _ (h.live _ e3).2 (h.live _ e1).1 h2
  subst hn; subst hm'
  exact ho m1 n1 k s0 s1 i j e1 hk (wt _ _ (h.live _ e1).1 hmm) e2 (wt _ _ (h.live _ e2).1 hi) e3 (wt _ _ (h.live _ e3).1 hj)

theorem optimize_reduced {c : MuxCircuit} {dia nIn outs} (h : WF c.graph) (hs : SelectorsOnly c.graph) (hr : Reduced c.graph dia) (hc : Computes c nIn outs) :
    ∃ c', optimize c = some c' ∧ WF c'.graph ∧ SelectorsOnly c'.graph ∧ Computes c' nIn outs ∧ (Ordered c.graph → Ordered c'.graph) := by
  obtain ⟨g', h1, h2, h3, h4⟩ := cse_reduced h hs hr
  have ho : optimize c = some (compactIndices g') := by unfold optimize; rw [h1]; rfl
  exact ⟨_, ho, compact_wf h2, compact_sel h2 h3, (optimize_computes h hc ho).2, fun ho => compact_ordered h2 (h4 ho)⟩

end Spf.Mux
