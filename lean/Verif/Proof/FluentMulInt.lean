import Verif.Proof.FluentMul
/-! Proofs about signed multiplication on circuits, and about pruning after a multiplication. -/
namespace Spf.Fluent
open Spf.Spec Spf.Fhe Spf.Props Spf.Mul Graph

theorem cmuxNode_ok {io : Nat → FheOp → Prop} (deg : Nat) {g : FGraph} {sel lo hi : Nat} (hl : Live g) (hwn : AreNodes g .ggsw1 [sel]) (hlon : AreNodes g .glwe1 [lo])
    (hhin : AreNodes g .glwe1 [hi]) :
    ∃ g' n, cmuxNode sel lo hi g = some (g', n) ∧ Step deg io g g' ∧ AreNodes g' .glwe1 [n] ∧
      ∀ cells s x y, FEval deg cells g sel (.ggsw1 s) → FEval deg cells g lo (ctOf .glwe1 x) → FEval deg cells g hi (ctOf .glwe1 y) →
        FEval deg cells g' n (ctOf .glwe1 (bif s then y else x)) := by
  have hw : (g.weight sel).isSome := AreNodes.live hwn (by simp)
  have hlo : (g.weight lo).isSome := AreNodes.live hlon (by simp)
  have hhi : (g.weight hi).isSome := AreNodes.live hhin (by simp)
  have he1 := addEdge_ext1 (op := .cmux) (es := []) (k := FheEdge.sel) hw
  have he2 := addEdge_ext1 (op := .cmux) (es := [(sel, .sel)]) (k := FheEdge.low) hlo
  have he3 := addEdge_ext1 (op := .cmux) (es := [(lo, .low), (sel, .sel)]) (k := FheEdge.high) hhi
  have hs : Grow g (ext1 g .cmux [(hi, .high), (lo, .low), (sel, .sel)]) := ⟨ext1_live hl (by
    intro p hp
    simp only [List.mem_cons, List.not_mem_nil, or_false] at hp
    rcases hp with rfl | rfl | rfl
    · exact hhi
    · exact hlo
    · exact hw), ext1_ext _ _ _⟩
  have hgood : Good deg io g → Good deg io (ext1 g .cmux [(hi, .high), (lo, .low), (sel, .sel)]) := by
    obtain ⟨⟨o1, w1, t1⟩, _⟩ := AreNodes.cons.1 hwn
    obtain ⟨⟨o2, w2, t2⟩, _⟩ := AreNodes.cons.1 hhin
    obtain ⟨⟨o3, w3, t3⟩, _⟩ := AreNodes.cons.1 hlon
    refine ext1_good hl (Or.inl (Internal.of rfl (by intro t c h; cases h))) ?_ ?_
    · intro p hp
      simp only [List.mem_cons, List.not_mem_nil, or_false] at hp
      rcases hp with rfl | rfl | rfl
      · exact ⟨_, _, w2, t2⟩
      · exact ⟨_, _, w3, t3⟩
      · exact ⟨_, _, w1, t1⟩
    · intro cells v hc hv
      obtain ⟨x, hx⟩ := Val.of_ggsw1 (feval_type hc (hv (sel, .sel) (by simp)) w1 t1)
      obtain ⟨y, hy⟩ := Val.of_glwe1 (feval_type hc (hv (hi, .high) (by simp)) w2 t2)
      obtain ⟨z, hz⟩ := Val.of_glwe1 (feval_type hc (hv (lo, .low) (by simp)) w3 t3)
      simp only at hx hy hz
      simp only [List.map_cons, List.map_nil]
      rw [hx, hy, hz]; rfl
  refine ⟨_, g.nodes.length, by simp only [cmuxNode, addNode_ext1, he1, he2, he3], ⟨hs, hgood⟩, AreNodes.cons.2 ⟨⟨.cmux, ext1_weight _ _ _, rfl⟩, by intro n hn; cases hn⟩, ?_⟩
  intro cells s c b hsel hc hb
  have hst : sel ≠ hi := by rintro rfl; have := fdet hsel hb; cases this
  have hsf : sel ≠ lo := by rintro rfl; have := fdet hsel hc; cases this
  refine ext1_eval hl (fun n => if n = sel then .ggsw1 s else if n = hi then ctOf .glwe1 b else ctOf .glwe1 c) ?_ ?_
  · intro e he
    simp only [List.mem_cons, List.not_mem_nil, or_false] at he
    rcases he with rfl | rfl | rfl
    · simp only [if_neg (Ne.symm hst), if_true]; exact hb
    · simp only [if_neg (Ne.symm hsf)]
      by_cases hft : lo = hi
      · subst hft; simp only [if_true]; exact hb
      · rw [if_neg hft]; exact hc
    · simp only [if_true]; exact hsel
  · simp only [List.map_cons, List.map_nil, if_true, if_neg (Ne.symm hst), if_neg (Ne.symm hsf)]
    by_cases hft : lo = hi
    · subst hft
      have hbc := fdet hb hc
      simp only [if_true]
      have hbc' : b = c := by
        have := congrArg Val.bit hbc
        rwa [ctOf_bit, ctOf_bit] at this
      subst hbc'
      cases s <;> rfl
    · rw [if_neg hft]; cases s <;> rfl

theorem negNodes_ok {io : Nat → FheOp → Prop} {lib : CircLib} (hlib : CircLibOk lib) {deg : Nat} {a : List Nat} {g : FGraph} (hl : Live g) (ha : AreNodes g .ggsw1 a)
    (h0 : 0 < a.length) (hv : a.length < maxVars) :
    ∃ g' r, negNodes lib a g = some (g', r) ∧ Step deg io g g' ∧ AreNodes g' .glwe1 r ∧ r.length = a.length ∧
      ∀ cells va, Holds deg cells g .ggsw1 a va → ∃ out, negBits va = some out ∧ Holds deg cells g' .glwe1 r out := by
  obtain ⟨outs, o1, o2, _⟩ := C03_negator (List.replicate a.length false) (by simpa using h0) (by simpa using hv)
  simp only [List.length_replicate] at o1 o2
  obtain ⟨g', r, h1, h2, h3, h4, h5⟩ := insertLib_ok (d := deg) (io := io) (mode := .glwe) hl (hlib.neg _ _ o1 (by intro h; rw [h] at o2; simp at o2; omega)) (nodes := a) rfl ha
  refine ⟨g', r, by unfold negNodes; rw [o1]; exact h1, h2, h3, by rw [h4, o2], ?_⟩
  intro cells va hva
  refine ⟨_, ?_, h5 deg cells va hva⟩
  unfold negBits
  rw [← hva.length_eq, o1]
  simp only [applyCircuit]
  rw [if_neg (by rw [hva.length_eq]; simp)]
  rfl

theorem absMux_ok {io : Nat → FheOp → Prop} {deg : Nat} (hdeg : 0 < deg) {sel : Nat} : ∀ (fs ts : List Nat) (g : FGraph), Live g → AreNodes g .ggsw1 [sel] →
    AreNodes g .glwe1 fs → AreNodes g .glwe1 ts → fs.length = ts.length →
    ∃ g' ms, absMux sel fs ts g = some (g', ms) ∧ Step deg io g g' ∧ AreNodes g' .ggsw1 ms ∧ ms.length = fs.length ∧
      ∀ cells s vf vt, FEval deg cells g sel (.ggsw1 s) → Holds deg cells g .glwe1 fs vf → Holds deg cells g .glwe1 ts vt →
        Holds deg cells g' .ggsw1 ms (List.zipWith (fun f t => bif s then t else f) vf vt)
  | [], [], g, hl, _, _, _, _ => ⟨g, [], rfl, Step.refl hl, (by intro n hn; cases hn), rfl, fun cells s vf vt _ h h' => by
      cases h; cases h'; exact .nil⟩
  | f :: fs, t :: ts, g, hl, hw, hf, ht, hlen => by
    obtain ⟨hf1, hf2⟩ := AreNodes.cons.1 hf
    obtain ⟨ht1, ht2⟩ := AreNodes.cons.1 ht
    obtain ⟨g1, n, a1, s1, n1, v1⟩ := cmuxNode_ok (io := io) (lo := f) (hi := t) deg hl hw (AreNodes.sub hf (by simp)) (AreNodes.sub ht (by simp))
    obtain ⟨g2, m, a2, s2, n2, v2⟩ := convert1_ok (io := io) hdeg .glwe1 .ggsw1 s1.live n1
    have s12 := s1.trans s2
    have hw2 : AreNodes g2 .ggsw1 [sel] := nodes_ext s12.ext hw
    obtain ⟨g3, ms, a3, s3, n3, l3, v3⟩ := absMux_ok (io := io) hdeg fs ts g2 s2.live hw2 (nodes_ext s12.ext hf2) (nodes_ext s12.ext ht2) (by simpa using hlen)
    refine ⟨g3, m :: ms, by simp only [absMux, a1, a2, a3], s12.trans s3,
      AreNodes.cons.2 ⟨(AreNodes.cons.1 (nodes_ext s3.ext n2)).1, n3⟩, by simp [l3], ?_⟩
    intro cells s vf vt hsel hvf hvt
    cases hvf with
    | @cons _ x _ xs hx hxs =>
      cases hvt with
      | @cons _ y _ ys hy hys =>
        exact .cons (s3.ext.eval (v2 cells _ (v1 cells s x y hsel hx hy)))
          (v3 cells s xs ys (s12.ext.eval hsel) (holds_ext s12.ext hxs) (holds_ext s12.ext hys))

theorem getLast_node {g : FGraph} {t} {a : List Nat} (ha : AreNodes g t a) (h0 : 0 < a.length) :
    ∃ s, a.getLast? = some s ∧ s ∈ a := by
  have hne : a ≠ [] := by intro h; simp [h] at h0
  exact ⟨a.getLast hne, List.getLast?_eq_some_getLast hne, List.getLast_mem hne⟩

theorem holds_getLast {deg cells g t} {a : List Nat} {va : List Bool} (h : Holds deg cells g t a va) {s : Nat} (hs : a.getLast? = some s) :
    ∃ x, va.getLast? = some x ∧ FEval deg cells g s (ctOf t x) := by
  rw [List.getLast?_eq_getElem?] at hs ⊢
  have hl := h.length_eq
  obtain ⟨hi, rfl⟩ := List.getElem?_eq_some_iff.1 hs
  refine ⟨va[a.length - 1]'(by omega), (by rw [show va.length - 1 = a.length - 1 by omega]; exact List.getElem?_eq_getElem _), ?_⟩
  have := (List.forall₂_iff_get.1 h).2 (a.length - 1) hi (by omega)
  simpa using this

theorem absNodes_ok {io : Nat → FheOp → Prop} {lib : CircLib} (hlib : CircLibOk lib) {deg : Nat} (hdeg : 0 < deg) {a : List Nat} {g : FGraph} (hl : Live g)
    (ha : AreNodes g .ggsw1 a) (h0 : 0 < a.length) (hv : a.length < maxVars) :
    ∃ g' r, absNodes lib a g = some (g', r) ∧ Step deg io g g' ∧ AreNodes g' .ggsw1 r ∧ r.length = a.length ∧
      ∀ cells va, Holds deg cells g .ggsw1 a va → ∃ out, absBits va = some out ∧ Holds deg cells g' .ggsw1 r out := by
  obtain ⟨g1, pos, a1, s1, n1, l1, v1⟩ := convertAll_ok (io := io) hdeg .ggsw1 .glwe1 a g hl ha
  obtain ⟨g2, neg, a2, s2, n2, l2, v2⟩ := negNodes_ok (io := io) hlib (deg := deg) s1.live (nodes_ext s1.ext ha) h0 hv
  have s12 := s1.trans s2
  obtain ⟨sel, e1, e2⟩ := getLast_node ha h0
  obtain ⟨g3, ms, a3, s3, n3, l3, v3⟩ := absMux_ok (io := io) hdeg (sel := sel) pos neg g2 s2.live (AreNodes.sub (nodes_ext s12.ext ha) (by simpa using e2))
    (nodes_ext s2.ext n1) n2 (by omega)
  refine ⟨g3, ms, by simp only [absNodes, a1, a2, e1, a3], s12.trans s3, n3, by omega, ?_⟩
  intro cells va hva
  obtain ⟨nb, b1, b2⟩ := v2 cells va (holds_ext s1.ext hva)
  obtain ⟨x, c1, c2⟩ := holds_getLast hva e1
  refine ⟨_, ?_, v3 cells x va nb (s12.ext.eval c2) (holds_ext s2.ext (v1 cells va hva)) b2⟩
  unfold absBits
  rw [b1, c1]

theorem signMux_ok {io : Nat → FheOp → Prop} {deg : Nat} (hdeg : 0 < deg) (out : CtType) {s1 s2 : Nat} : ∀ (ps ns : List Nat) (g : FGraph), Live g →
    AreNodes g .ggsw1 [s1] → AreNodes g .ggsw1 [s2] → AreNodes g .glwe1 ps → AreNodes g .glwe1 ns → ps.length = ns.length →
    ∃ g' ms, signMux out s1 s2 ps ns g = some (g', ms) ∧ Step deg io g g' ∧ AreNodes g' out ms ∧ ms.length = ps.length ∧
      ∀ cells x1 x2 vp vn, FEval deg cells g s1 (.ggsw1 x1) → FEval deg cells g s2 (.ggsw1 x2) → Holds deg cells g .glwe1 ps vp →
        Holds deg cells g .glwe1 ns vn → Holds deg cells g' out ms (List.zipWith (fun pos neg =>
          bif x2 then bif x1 then pos else neg else bif x1 then neg else pos) vp vn)
  | [], [], g, hl, _, _, _, _, _ => ⟨g, [], rfl, Step.refl hl, (by intro n hn; cases hn), rfl, fun cells x1 x2 vp vn _ _ h h' => by
      cases h; cases h'; exact .nil⟩
  | p :: ps, n :: ns, g, hl, hw1, hw2, hp, hn, hlen => by
    obtain ⟨hp1, hp2⟩ := AreNodes.cons.1 hp
    obtain ⟨hn1, hn2⟩ := AreNodes.cons.1 hn
    have hpl : AreNodes g .glwe1 [p] := AreNodes.sub hp (by simp)
    have hnl : AreNodes g .glwe1 [n] := AreNodes.sub hn (by simp)
    obtain ⟨g1, m11, a1, t1, n1, v1⟩ := cmuxNode_ok (io := io) deg hl hw1 hpl hnl
    obtain ⟨g2, m12, a2, t2, n2, v2⟩ := cmuxNode_ok (io := io) deg t1.live (nodes_ext t1.ext hw1) (nodes_ext t1.ext hnl) (nodes_ext t1.ext hpl)
    have t12 := t1.trans t2
    obtain ⟨g3, m2, a3, t3, n3, v3⟩ := cmuxNode_ok (io := io) deg t2.live (nodes_ext t12.ext hw2) (nodes_ext t2.ext n1) n2
    have t13 := t12.trans t3
    obtain ⟨g4, r, a4, t4, n4, v4⟩ := convert1_ok (io := io) hdeg .glwe1 out t3.live n3
    have t14 := t13.trans t4
    obtain ⟨g5, rs, a5, t5, n5, l5, v5⟩ := signMux_ok (io := io) hdeg out ps ns g4 t4.live (nodes_ext t14.ext hw1) (nodes_ext t14.ext hw2) (nodes_ext t14.ext hp2)
      (nodes_ext t14.ext hn2) (by simpa using hlen)
    refine ⟨g5, r :: rs, by simp only [signMux, a1, a2, a3, a4, a5], t14.trans t5,
      AreNodes.cons.2 ⟨(AreNodes.cons.1 (nodes_ext t5.ext n4)).1, n5⟩, by simp [l5], ?_⟩
    intro cells x1 x2 vp vn hs1 hs2 hvp hvn
    cases hvp with
    | @cons _ x _ xs hx hxs =>
      cases hvn with
      | @cons _ y _ ys hy hys =>
        have e1 := v1 cells x1 x y hs1 hx hy
        have e2 := v2 cells x1 y x (t1.ext.eval hs1) (t1.ext.eval hy) (t1.ext.eval hx)
        have e3 := v3 cells x2 _ _ (t12.ext.eval hs2) (t2.ext.eval e1) e2
        exact .cons (t5.ext.eval (v4 cells _ e3))
          (v5 cells x1 x2 xs ys (t14.ext.eval hs1) (t14.ext.eval hs2) (holds_ext t14.ext hxs) (holds_ext t14.ext hys))

/-- what a correct full product is -/
def FullDone (lib : CircLib) (deg : Nat) (io : Nat → FheOp → Prop) (sign : Sign) (mode : MuxMode) (a b : List Nat) (g : FGraph) : Prop :=
  ∃ g' lo hi, appendMultiply lib sign mode a b g = some (g', lo, hi) ∧ Step deg io g g' ∧ AreNodes g' (modeType mode) (lo ++ hi) ∧
    lo.length = a.length ∧ hi.length = b.length ∧
    ∀ cells va vb, Holds deg cells g .ggsw1 a va → Holds deg cells g .ggsw1 b vb →
      ∃ vl vh, Holds deg cells g' (modeType mode) lo vl ∧ Holds deg cells g' (modeType mode) hi vh ∧
        intVal sign (vl ++ vh) = intVal sign va * intVal sign vb

theorem appendUint_ok {io : Nat → FheOp → Prop} {lib : CircLib} (hlib : CircLibOk lib) {deg : Nat} (hdeg : 0 < deg) {mode : MuxMode} {a b : List Nat} {g : FGraph}
    (hw : MulWidths a.length b.length) (hm : mode = .glwe ∨ a.length ≤ 16 ∧ b.length ≤ 16) (hl : Live g) (ha : AreNodes g .ggsw1 a)
    (hb : AreNodes g .ggsw1 b) : FullDone lib deg io .unsigned mode a b g := by
  obtain ⟨g', r, h1, h2, h3, h4, h5⟩ := mulNodes_ok (io := io) hlib hdeg hw mode a b g hm rfl rfl hl ha hb
  refine ⟨g', r.take a.length, r.drop a.length, ?_, h2, by rw [List.take_append_drop]; exact h3, by rw [List.length_take]; omega,
    by rw [List.length_drop]; omega, ?_⟩
  · simp only [appendMultiply, appendUint, h1]; rw [if_pos (by omega)]
  · intro cells va vb hva hvb
    obtain ⟨out, o1, o2⟩ := h5 cells va vb hva hvb
    refine ⟨_, _, holds_take o2 _, holds_drop o2 _, ?_⟩
    rw [List.take_append_drop]
    show (valLE out : Int) = (valLE va : Int) * valLE vb
    rw [(C10_mul_sound _ _ _ o1).2]; push_cast; rfl

theorem mulWidths_pos {n m : Nat} (h : MulWidths n m) : 0 < n ∧ 0 < m ∧ n + m < maxVars := by
  induction h with
  | base h1 h2 h3 h4 => simp only [maxVars]; omega
  | split h1 h2 h3 h4 => omega
  | swap h _ ih => omega

theorem appendInt_ok {io : Nat → FheOp → Prop} {lib : CircLib} (hlib : CircLibOk lib) {deg : Nat} (hdeg : 0 < deg) {mode : MuxMode} {a b : List Nat} {g : FGraph}
    (hw : MulWidths a.length b.length) (hl : Live g) (ha : AreNodes g .ggsw1 a)
    (hb : AreNodes g .ggsw1 b) : FullDone lib deg io .signed mode a b g := by
  obtain ⟨pa, pb, pv⟩ := mulWidths_pos hw
  obtain ⟨g1, A, a1, s1, n1, l1, v1⟩ := absNodes_ok (io := io) hlib hdeg hl ha pa (by omega)
  obtain ⟨g2, B, a2, s2, n2, l2, v2⟩ := absNodes_ok (io := io) hlib hdeg s1.live (nodes_ext s1.ext hb) pb (by omega)
  have s12 := s1.trans s2
  obtain ⟨g3, pos, a3, s3, n3, l3, v3⟩ := mulNodes_ok (io := io) hlib hdeg hw .glwe A B g2 (Or.inl rfl) l1 l2 s2.live (nodes_ext s2.ext n1) n2
  have s13 := s12.trans s3
  obtain ⟨g4, posG, a4, s4, n4, l4, v4⟩ := convertAll_ok (io := io) hdeg .glwe1 .ggsw1 pos g3 s3.live n3
  have s14 := s13.trans s4
  obtain ⟨g5, neg, a5, s5, n5, l5, v5⟩ := negNodes_ok (io := io) hlib (deg := deg) s4.live n4 (by omega) (by omega)
  have s15 := s14.trans s5
  obtain ⟨x, ea1, ea2⟩ := getLast_node ha pa
  obtain ⟨y, eb1, eb2⟩ := getLast_node hb pb
  obtain ⟨g6, r, a6, s6, n6, l6, v6⟩ := signMux_ok (io := io) hdeg (modeType mode) pos neg g5 s5.live
    (AreNodes.sub (nodes_ext s15.ext ha) (by simpa using ea2)) (AreNodes.sub (nodes_ext s15.ext hb) (by simpa using eb2))
    (nodes_ext (s4.trans s5).ext n3) n5 (by omega)
  refine ⟨g6, r.take a.length, r.drop a.length, ?_, s15.trans s6, by rw [List.take_append_drop]; exact n6, by rw [List.length_take]; omega,
    by rw [List.length_drop]; omega, ?_⟩
  · simp only [appendMultiply, appendInt, a1, a2, a3, a4, a5, ea1, eb1, muxType_eq, a6]
    rw [if_pos (by omega)]
  · intro cells va vb hva hvb
    obtain ⟨vA, b1, w1⟩ := v1 cells va hva
    obtain ⟨vB, b2, w2⟩ := v2 cells vb (holds_ext s1.ext hvb)
    obtain ⟨vp, b3, w3⟩ := v3 cells vA vB (holds_ext s2.ext w1) w2
    obtain ⟨vn, b5, w5⟩ := v5 cells vp (v4 cells vp w3)
    obtain ⟨x1, c1, c2⟩ := holds_getLast hva ea1
    obtain ⟨x2, d1, d2⟩ := holds_getLast hvb eb1
    have hr := v6 cells x1 x2 vp vn (s15.ext.eval c2) (s15.ext.eval d2) (holds_ext (s4.trans s5).ext w3) w5
    refine ⟨_, _, holds_take hr a.length, holds_drop hr a.length, ?_⟩
    have hla := hva.length_eq
    have hlb := hvb.length_eq
    have := C10_signed_sound va vb _ _ (by omega) (show appendIntMultiply va vb = some _ by
      unfold appendIntMultiply
      rw [b1, b2, c1, d1]
      simp only [b3, b5]
      rfl)
    rw [hla]
    exact this.2.2

end Spf.Fluent
