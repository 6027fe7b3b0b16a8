import Verif.Spec.FluentRun
import Verif.Props.FluentProg
import Verif.Spec.Sched
/-! Circuits of fluent programs: topological orders, output nodes. -/
namespace Spf.Fluent
open Spf.Spec Spf.Fhe Spf.Props Graph

/-! ### a circuit whose nodes have values has a topological order -/

/-- a duplicate-free list of nodes in which the operands of a node precede it -/
structure Sorted (g : FGraph) (l : List Nat) : Prop where
  nodup : l.Nodup
  live : ∀ n ∈ l, (g.weight n).isSome
  pred : ∀ e ∈ g.edges, ∀ l₁ l₂, l = l₁ ++ e.2.1 :: l₂ → e.1 ∈ l₁

theorem Sorted.snoc {g : FGraph} {l : List Nat} (h : Sorted g l) {n : Nat} (hn : n ∉ l) (hw : (g.weight n).isSome)
    (hp : ∀ e ∈ g.edges, e.2.1 = n → e.1 ∈ l) : Sorted g (l ++ [n]) := by
  refine ⟨?_, ?_, ?_⟩
  · rw [List.nodup_append]
    exact ⟨h.nodup, by simp, fun a ha b hb => by rw [List.mem_singleton.1 hb]; rintro rfl; exact hn ha⟩
  · intro m hm
    rcases List.mem_append.1 hm with hm | hm
    · exact h.live m hm
    · rw [List.mem_singleton.1 hm]; exact hw
  · intro e he l₁ l₂ hl
    rcases List.eq_nil_or_concat l₂ with rfl | ⟨l₂', x, rfl⟩
    · obtain ⟨h1, h2⟩ := List.append_inj' hl rfl
      cases h2
      rw [← h1]
      exact hp e he rfl
    · have hl' : l ++ [n] = (l₁ ++ e.2.1 :: l₂') ++ [x] := by rw [hl]; simp
      obtain ⟨h1, _⟩ := List.append_inj' hl' rfl
      exact h.pred e he l₁ l₂' h1

theorem Sorted.add {deg cells} {g : FGraph} {n v} (h : FEval deg cells g n v) : ∀ l, Sorted g l → ∃ m, Sorted g (l ++ m) ∧ n ∈ l ++ m := by
  induction h with
  | @op n op v f hw hs hx ih =>
    have key : ∀ (es : List (Nat × Nat × FheEdge)), (∀ e ∈ es, e ∈ g.inEdges n) → ∀ l, Sorted g l → ∃ m, Sorted g (l ++ m) ∧ ∀ e ∈ es, e.1 ∈ l ++ m := by
      intro es
      induction es with
      | nil => exact fun _ l hl => ⟨[], by simpa using hl, by simp⟩
      | cons e es ihs =>
        intro hes l hl
        obtain ⟨m, m1, m2⟩ := ih e (hes e (by simp)) l hl
        obtain ⟨m', m3, m4⟩ := ihs (fun e' he' => hes e' (by simp [he'])) _ m1
        refine ⟨m ++ m', by rw [← List.append_assoc]; exact m3, ?_⟩
        intro e' he'
        rw [← List.append_assoc]
        rcases List.mem_cons.1 he' with rfl | he'
        · exact List.mem_append_left _ m2
        · exact m4 e' he'
    intro l hl
    obtain ⟨m, m1, m2⟩ := key _ (fun _ h => h) l hl
    by_cases hn : n ∈ l ++ m
    · exact ⟨m, m1, hn⟩
    · refine ⟨m ++ [n], ?_, by simp⟩
      rw [← List.append_assoc]
      refine m1.snoc hn (by rw [hw]; rfl) ?_
      intro e he hen
      apply m2 e
      unfold Graph.inEdges
      rw [List.mem_filter]
      exact ⟨he, by simpa using hen⟩

theorem topo_exists {deg cells} {g : FGraph} (hl : Live g) (h : ∀ n, (g.weight n).isSome → ∃ v, FEval deg cells g n v) : ∃ ord, Sched.TopoOrder g ord := by
  have key : ∀ k : Nat, ∃ l, Sorted g l ∧ ∀ n < k, (g.weight n).isSome → n ∈ l := by
    intro k
    induction k with
    | zero => exact ⟨[], ⟨by simp, by simp, by intro e _ l₁ l₂ hl; simp at hl⟩, by simp⟩
    | succ k ih =>
      obtain ⟨l, h1, h2⟩ := ih
      by_cases hk : (g.weight k).isSome
      · obtain ⟨v, hv⟩ := h k hk
        obtain ⟨m, m1, m2⟩ := Sorted.add hv l h1
        refine ⟨l ++ m, m1, fun n hn hw => ?_⟩
        by_cases he : n = k
        · subst he; exact m2
        · exact List.mem_append_left _ (h2 n (by omega) hw)
      · refine ⟨l, h1, fun n hn hw => h2 n ?_ hw⟩
        by_cases he : n = k
        · subst he; exact absurd hw hk
        · omega
  obtain ⟨l, h1, h2⟩ := key g.nodes.length
  refine ⟨l, h1.nodup, fun n => ⟨h1.live n, fun hw => ?_⟩, h1.pred, hl⟩
  obtain ⟨x, hx⟩ := Option.isSome_iff_exists.1 hw
  exact h2 n (lt_of_weight hx) hw

/-! ### output nodes -/

/-- the output nodes write different cells, all in `U` -/
def OutsIn (g : FGraph) (U : List (CtType × Nat)) : Prop :=
  (∀ n t c, g.weight n = some (.output t c) → (t, c) ∈ U) ∧
  ∀ n n' t c, g.weight n = some (.output t c) → g.weight n' = some (.output t c) → n = n'

theorem ext1_weight_cases {g : FGraph} {op : FheOp} {es : List (Nat × FheEdge)} {m : Nat} {x : FheOp} (h : (ext1 g op es).weight m = some x) :
    g.weight m = some x ∨ (m = g.nodes.length ∧ x = op) := by
  by_cases hlt : m < g.nodes.length
  · left
    rw [← h]
    exact (extF_weight_lt g [op] _ hlt).symm
  · right
    have hm := lt_of_weight h
    simp only [ext1, extF, List.length_append, List.length_map, List.length_cons, List.length_nil] at hm
    have : m = g.nodes.length := by omega
    subst this
    rw [ext1_weight] at h
    exact ⟨rfl, (Option.some.inj h).symm⟩

theorem OutsIn.ext1 {g : FGraph} {U : List (CtType × Nat)} (h : OutsIn g U) {t c} {es : List (Nat × FheEdge)} (hc : (t, c) ∉ U) :
    OutsIn (ext1 g (.output t c) es) (U ++ [(t, c)]) := by
  constructor
  · intro n t' c' hn
    rcases ext1_weight_cases hn with hn | ⟨_, hn⟩
    · exact List.mem_append_left _ (h.1 n t' c' hn)
    · cases hn; simp
  · intro n n' t' c' hn hn'
    rcases ext1_weight_cases hn with hn | ⟨e, hn⟩ <;> rcases ext1_weight_cases hn' with hn' | ⟨e', hn'⟩
    · exact h.2 n n' t' c' hn hn'
    · cases hn'; exact absurd (h.1 n _ _ hn) hc
    · cases hn; exact absurd (h.1 n' _ _ hn') hc
    · omega

theorem collectOutputs_outs (t : CtType) : ∀ (ns cs : List Nat) (g : FGraph) (U : List (CtType × Nat)) (r : FGraph × List Nat), ns.length = cs.length →
    (∀ n ∈ ns, (g.weight n).isSome) → collectOutputs t ns cs g = some r → OutsIn g U → (U ++ cs.map (t, ·)).Nodup → OutsIn r.1 (U ++ cs.map (t, ·))
  | [], [], g, U, r, _, _, h, hU, _ => by cases h; simpa using hU
  | n :: ns, c :: cs, g, U, r, hlen, hn, h, hU, hnd => by
    have hw := hn n (by simp)
    have he := addEdge_ext1 (op := .output t c) (es := []) (k := FheEdge.unary) hw
    simp only [collectOutputs, addNode_ext1, he] at h
    cases hr : collectOutputs t ns cs (ext1 g (.output t c) [(n, .unary)]) with
    | none => rw [hr] at h; cases h
    | some q =>
      rw [hr] at h
      cases h
      rw [List.map_cons, List.append_cons] at hnd ⊢
      refine collectOutputs_outs t ns cs _ (U ++ [(t, c)]) q (by simpa using hlen) ?_ hr (hU.ext1 ?_) hnd
      · intro m hm
        rw [ext1_old (hn m (by simp [hm]))]; exact hn m (by simp [hm])
      · intro hc
        have := (List.nodup_append.1 (List.nodup_append.1 hnd).1).2.2
        exact this _ hc _ (by simp) rfl

theorem handle_nodes {g : FGraph} {ty : Ty} {h : Handle} (hk : HandleOk g ty h) :
    (handleNodes h).1 = outKind ty ∧ (handleNodes h).2.length = outWidth ty ∧ AreNodes g (outKind ty) (handleNodes h).2 := by
  cases ty <;> cases h <;> simp only [HandleOk] at hk
  · obtain ⟨rfl, rfl, h1, h2⟩ := hk
    exact ⟨rfl, h1, h2⟩
  · obtain ⟨rfl, h2⟩ := hk
    exact ⟨rfl, rfl, h2⟩
  · exact ⟨rfl, rfl, hk.2.2⟩

theorem collectAll_ok {tys : List Ty} {hs : List Handle} : ∀ (outs : List (Nat × List Nat)) (g : FGraph), Live g → List.Forall₂ (HandleOk g) tys hs →
    (∀ o ∈ outs, ∃ ty, tys[o.1]? = some ty ∧ o.2.length = outWidth ty) →
    ∃ g', collectAll hs outs g = some g' ∧ Grow g g' ∧
      (∀ d io, (∀ p ∈ outCells tys outs, ∀ n, io n (.output p.1 p.2)) → Good d io g → Good d io g') ∧
      (∀ U, OutsIn g U → (U ++ outCells tys outs).Nodup → OutsIn g' (U ++ outCells tys outs)) ∧
      ∀ o ∈ outs, ∀ ty h, tys[o.1]? = some ty → hs[o.1]? = some h → ∃ os, List.Forall₂ (fun n c => g'.weight n = some (.output (outKind ty) c)) os o.2 ∧
        ∀ deg cells us, List.Forall₂ (fun n v => FEval deg cells g n v ∧ v.type = outKind ty) (handleNodes h).2 us → List.Forall₂ (FEval deg cells g') os us
  | [], g, hl, _, _ => ⟨g, rfl, Grow.refl hl, fun _ _ _ h => h, fun U h _ => by simpa [outCells] using h, by simp⟩
  | (k, cs) :: outs, g, hl, hh, hw => by
    obtain ⟨ty, k1, k2⟩ := hw (k, cs) (by simp)
    obtain ⟨hlen, hget⟩ := List.forall₂_iff_get.1 hh
    have kl := (List.getElem?_eq_some_iff.1 k1).1
    have kl' : k < hs.length := by rw [← hlen]; exact kl
    have hk : HandleOk g ty hs[k] := by
      have := hget k kl kl'
      rw [List.get_eq_getElem, List.get_eq_getElem] at this
      rw [List.getElem?_eq_getElem kl, Option.some.injEq] at k1
      rwa [k1] at this
    obtain ⟨n1, n2, n3⟩ := handle_nodes hk
    have hlv : ∀ n ∈ (handleNodes hs[k]).2, (g.weight n).isSome := fun n hn => AreNodes.live n3 hn
    obtain ⟨g1, os, b1, b2, b3, b4, b5, b6⟩ := collectOutputs_ok (outKind ty) (handleNodes hs[k]).2 cs g hl (by rw [n2, k2]) hlv
    have hcell : outCells tys ((k, cs) :: outs) = cs.map (outKind ty, ·) ++ outCells tys outs := by
      simp only [outCells, List.flatMap_cons, k1]
    obtain ⟨g2, c1, c2, c3, c4, c5⟩ := collectAll_ok outs g1 b2.live (hh.imp fun _ _ hx => handleOk_ext b2.ext hx) (fun o ho => hw o (by simp [ho]))
    refine ⟨g2, ?_, b2.trans c2, ?_, ?_, ?_⟩
    · rw [collectAll, List.getElem?_eq_getElem kl']
      simp only
      rw [if_pos (by rw [n2, k2]), n1, b1]
      exact c1
    · intro d io hio hg
      refine c3 d io (fun p hp => hio p (by rw [hcell]; exact List.mem_append_right _ hp)) (b4 d io (fun c hc => ?_) n3 hg)
      exact hio (outKind ty, c) (by rw [hcell]; exact List.mem_append_left _ (List.mem_map.2 ⟨c, hc, rfl⟩))
    · intro U hU hnd
      rw [hcell, ← List.append_assoc] at *
      exact c4 _ (collectOutputs_outs _ _ _ _ U _ (by rw [n2, k2]) hlv b1 hU (List.nodup_append.1 hnd).1) hnd
    · intro o ho ty' h' t1 t2
      rcases List.mem_cons.1 ho with rfl | ho
      · rw [k1] at t1
        cases t1
        rw [List.getElem?_eq_getElem kl'] at t2
        cases t2
        exact ⟨os, b5.imp fun n c hx => (c2.ext _ _ hx).1, fun deg cells us hu => (b6 deg cells us hu).imp fun n v hx => c2.ext.eval hx⟩
      · obtain ⟨os', d1, d2⟩ := c5 o ho ty' h' t1 t2
        exact ⟨os', d1, fun deg cells us hu => d2 deg cells us (hu.imp fun n v hx => ⟨b2.ext.eval hx.1, hx.2⟩)⟩

end Spf.Fluent
