import Verif.Proof.FluentOps
/-! Lemmas about packing, unpacking and selection. -/
namespace Spf.Fluent
open Spf.Spec Spf.Fhe Spf.Props Graph

/-- the nodes produce the given polynomials -/
def HoldsP (deg : Nat) (cells : CtType → Nat → Val) (g : FGraph) (ns : List Nat) (ps : List (Nat → Bool)) : Prop :=
  List.Forall₂ (fun n p => FEval deg cells g n (.glwe1 p)) ns ps

theorem holdsP_ext {g g' : FGraph} (h : FExt g g') {deg cells ns ps} (hn : HoldsP deg cells g ns ps) : HoldsP deg cells g' ns ps :=
  List.Forall₂.imp (fun _ _ hx => h.eval hx) hn

/-- coefficientwise sum modulo 2 -/
def xorAll (ps : List (Nat → Bool)) : Nat → Bool := fun j => ps.foldr (fun p acc => Bool.xor (p j) acc) false

theorem xorAll_cons (p : Nat → Bool) (ps) (j : Nat) : xorAll (p :: ps) j = Bool.xor (p j) (xorAll ps j) := rfl

/-- the polynomial `b X^i` -/
def mono (i : Nat) (b : Bool) : Nat → Bool := fun j => j == i && b

/-- the polynomials `b_0 X^i, b_1 X^{i+1}, …` -/
def monos : Nat → List Bool → List (Nat → Bool)
  | _, [] => []
  | i, b :: bs => mono i b :: monos (i + 1) bs

theorem monos_length : ∀ (i : Nat) (bs : List Bool), (monos i bs).length = bs.length
  | _, [] => rfl
  | i, b :: bs => by rw [monos, List.length_cons, List.length_cons, monos_length]

theorem xorAll_monos : ∀ (bs : List Bool) (i j : Nat), xorAll (monos i bs) j = (decide (i ≤ j) && bs.getD (j - i) false)
  | [], i, j => by simp [monos, xorAll]
  | b :: bs, i, j => by
    rw [monos, xorAll_cons, xorAll_monos bs (i + 1) j]
    unfold mono
    rcases Nat.lt_trichotomy j i with h | rfl | h
    · have h1 : (j == i) = false := by simp; omega
      have h2 : decide (i + 1 ≤ j) = false := by simp; omega
      have h3 : decide (i ≤ j) = false := by simp; omega
      rw [h1, h2, h3]; rfl
    · have h2 : decide (j + 1 ≤ j) = false := by simp
      rw [h2]; simp
    · have h1 : (j == i) = false := by simp; omega
      have h2 : decide (i + 1 ≤ j) = true := by simp; omega
      have h3 : decide (i ≤ j) = true := by simp; omega
      rw [h1, h2, h3, show j - i = (j - (i + 1)) + 1 by omega]
      simp

theorem mulXN_const (deg n : Nat) (h0 : 0 < n) (h : n < deg) (b : Bool) :
    (fun i => decide (i < deg) && constPoly b ((i + (deg - n % deg)) % deg)) = mono n b := by
  funext i
  unfold constPoly mono
  rw [Nat.mod_eq_of_lt h]
  by_cases hi : i < deg
  · rcases Nat.lt_trichotomy i n with hh | rfl | hh
    · rw [Nat.mod_eq_of_lt (by omega)]
      have h1 : (i == n) = false := by simp; omega
      have h2 : (i + (deg - n) == 0) = false := by simp; omega
      rw [h1, h2]; simp
    · rw [show i + (deg - i) = deg by omega, Nat.mod_self]; simp [hi]
    · rw [show i + (deg - n) = (i - n) + deg by omega, Nat.add_mod_right, Nat.mod_eq_of_lt (by omega)]
      have h1 : (i == n) = false := by simp; omega
      have h2 : (i - n == 0) = false := by simp; omega
      rw [h1, h2]; simp
  · have h1 : (i == n) = false := by simp; omega
    simp [hi, h1]

theorem shiftBits_ok (deg : Nat) {io : Nat → FheOp → Prop} : ∀ (ns : List Nat) (i : Nat) (g : FGraph), Live g → AreNodes g .glwe1 ns → i + ns.length ≤ deg →
    ∃ g' ms, shiftBits i ns g = some (g', ms) ∧ Step deg io g g' ∧ AreNodes g' .glwe1 ms ∧ ms.length = ns.length ∧
      ∀ cells bits, Holds deg cells g .glwe1 ns bits → HoldsP deg cells g' ms (monos i bits)
  | [], i, g, hl, _, _ => ⟨g, [], rfl, Step.refl hl, (by intro n hn; cases hn), rfl, fun cells bits h => by cases h; exact .nil⟩
  | n :: ns, i, g, hl, hn, hd => by
    obtain ⟨⟨op, hw, ht⟩, hns⟩ := AreNodes.cons.1 hn
    simp only [List.length_cons] at hd
    by_cases hi : i > 0
    · have hwn : (g.weight n).isSome := by rw [hw]; rfl
      have he := addEdge_ext1 (op := .mulXN i) (es := []) (k := FheEdge.unary) hwn
      have hs : Step deg io g (ext1 g (.mulXN i) [(n, .unary)]) := ⟨⟨ext1_live hl (by simpa using hwn), ext1_ext _ _ _⟩,
        ext1_good1 hl (Or.inl (Internal.of rfl (by intro t c h; cases h))) ⟨op, hw, ht⟩ fun cells v hv => by obtain ⟨p, rfl⟩ := Val.of_glwe1 hv; rfl⟩
      obtain ⟨g2, ms, h2, s2, a2, l2, v2⟩ := shiftBits_ok deg ns (i + 1) _ hs.live (nodes_ext hs.ext hns) (by omega)
      refine ⟨g2, g.nodes.length :: ms, ?_, hs.trans s2, AreNodes.cons.2 ⟨⟨.mulXN i, (s2.ext _ _ (ext1_weight _ _ _)).1, rfl⟩, a2⟩, by simp [l2], ?_⟩
      · simp only [shiftBits, if_pos hi, addNode_ext1, he, h2]
      · intro cells bits hb
        cases hb with
        | @cons _ b _ bs hx hxs =>
          refine .cons (s2.ext.eval (ext1_eval hl (fun _ => ctOf .glwe1 b) (by simpa using hx) ?_)) (v2 cells bs (holds_ext hs.ext hxs))
          rw [← mulXN_const deg i hi (by omega) b]
          rfl
    · have hi0 : i = 0 := by omega
      subst hi0
      obtain ⟨g2, ms, h2, s2, a2, l2, v2⟩ := shiftBits_ok deg ns 1 g hl hns (by omega)
      refine ⟨g2, n :: ms, ?_, s2, AreNodes.cons.2 ⟨⟨op, (s2.ext _ _ hw).1, ht⟩, a2⟩, by simp [l2], ?_⟩
      · simp only [shiftBits, if_neg hi, h2]
      · intro cells bits hb
        cases hb with
        | @cons _ b _ bs hx hxs => exact .cons (s2.ext.eval hx) (v2 cells bs hxs)

theorem addPairs_ok (deg : Nat) {io : Nat → FheOp → Prop} : ∀ (ns : List Nat) (g : FGraph), Live g → AreNodes g .glwe1 ns →
    ∃ g' ms, addPairs ns g = some (g', ms) ∧ Step deg io g g' ∧ AreNodes g' .glwe1 ms ∧ ms.length = (ns.length + 1) / 2 ∧
      ∀ cells ps, HoldsP deg cells g ns ps → ∃ qs, HoldsP deg cells g' ms qs ∧ ∀ j, xorAll qs j = xorAll ps j
  | [], g, hl, _ => ⟨g, [], rfl, Step.refl hl, (by intro n hn; cases hn), rfl, fun cells ps h => ⟨ps, h, fun _ => rfl⟩⟩
  | [n], g, hl, hn => ⟨g, [n], rfl, Step.refl hl, hn, (by simp), fun cells ps h => ⟨ps, h, fun _ => rfl⟩⟩
  | x :: y :: rest, g, hl, hn => by
    obtain ⟨⟨opx, hwx, htx⟩, hn2⟩ := AreNodes.cons.1 hn
    obtain ⟨⟨opy, hwy, hty⟩, hns⟩ := AreNodes.cons.1 hn2
    have hx' : (g.weight x).isSome := by rw [hwx]; rfl
    have hy' : (g.weight y).isSome := by rw [hwy]; rfl
    have he1 := addEdge_ext1 (op := .glweAdd) (es := []) (k := FheEdge.left) hx'
    have he2 := addEdge_ext1 (op := .glweAdd) (es := [(x, .left)]) (k := FheEdge.right) hy'
    have hs : Step deg io g (ext1 g .glweAdd [(y, .right), (x, .left)]) := ⟨⟨ext1_live hl (by
      intro p hp
      simp only [List.mem_cons, List.not_mem_nil, or_false] at hp
      rcases hp with rfl | rfl
      · exact hy'
      · exact hx'), ext1_ext _ _ _⟩, ext1_good hl (Or.inl (Internal.of rfl (by intro t c h; cases h))) (by
        intro p hp
        simp only [List.mem_cons, List.not_mem_nil, or_false] at hp
        rcases hp with rfl | rfl
        · exact ⟨_, _, hwy, hty⟩
        · exact ⟨_, _, hwx, htx⟩) fun cells f hc hf => by
          obtain ⟨p, hp⟩ := Val.of_glwe1 (feval_type hc (hf (y, .right) (by simp)) hwy hty)
          obtain ⟨q, hq⟩ := Val.of_glwe1 (feval_type hc (hf (x, .left) (by simp)) hwx htx)
          simp only [List.map_cons, List.map_nil]
          simp only at hp hq
          rw [hp, hq]; rfl⟩
    obtain ⟨g2, ms, h2, s2, a2, l2, v2⟩ := addPairs_ok deg rest _ hs.live (nodes_ext hs.ext hns)
    refine ⟨g2, g.nodes.length :: ms, ?_, hs.trans s2, AreNodes.cons.2 ⟨⟨.glweAdd, (s2.ext _ _ (ext1_weight _ _ _)).1, rfl⟩, a2⟩, by simp [l2]; omega, ?_⟩
    · simp only [addPairs, addNode_ext1, he1, he2, h2]
    · intro cells ps hp
      cases hp with
      | @cons _ p _ ps1 hx hxs =>
        cases hxs with
        | @cons _ q _ ps2 hy hys =>
          obtain ⟨qs, hq1, hq2⟩ := v2 cells ps2 (holdsP_ext hs.ext hys)
          refine ⟨(fun i => Bool.xor (p i) (q i)) :: qs, .cons (s2.ext.eval ?_) hq1, ?_⟩
          · by_cases hxy : x = y
            · subst hxy
              have : p = q := by have := fdet hx hy; cases this; rfl
              subst this
              exact ext1_eval hl (fun _ => .glwe1 p) (by simpa using hx) rfl
            · refine ext1_eval hl (fun n => if n = x then .glwe1 p else .glwe1 q) ?_ ?_
              · intro e he
                simp only [List.mem_cons, List.not_mem_nil, or_false] at he
                rcases he with rfl | rfl
                · simp only; rw [if_neg (fun h => hxy h.symm)]; exact hy
                · simp only [if_true]; exact hx
              · simp only [List.map_cons, List.map_nil, if_true, if_neg (fun h : y = x => hxy h.symm)]
                rfl
          · intro j
            rw [xorAll_cons, xorAll_cons, xorAll_cons, hq2, Bool.xor_assoc]

theorem addTree_ok (deg : Nat) {io : Nat → FheOp → Prop} : ∀ (k : Nat) (ns : List Nat) (g : FGraph), Live g → AreNodes g .glwe1 ns → 0 < ns.length →
    2 ^ k < 2 * ns.length → ns.length ≤ 2 ^ k →
    ∃ g' n, addTree k ns g = some (g', [n]) ∧ Step deg io g g' ∧ AreNodes g' .glwe1 [n] ∧
      ∀ cells ps, HoldsP deg cells g ns ps → FEval deg cells g' n (.glwe1 (xorAll ps))
  | 0, ns, g, hl, hn, h0, _, h2 => by
    match ns, h0, h2 with
    | [n], _, _ =>
      refine ⟨g, n, rfl, Step.refl hl, hn, ?_⟩
      intro cells ps hp
      cases hp with
      | @cons _ p _ ps hx hxs =>
        cases hxs
        have : xorAll [p] = p := by funext j; simp [xorAll]
        rw [this]; exact hx
  | k + 1, ns, g, hl, hn, h0, h1, h2 => by
    rw [Nat.pow_succ] at h1 h2
    have hpos := Nat.two_pow_pos k
    have hgt : ns.length > 1 := by omega
    obtain ⟨g1, ms, e1, s1, a1, l1, v1⟩ := addPairs_ok deg ns g hl hn
    obtain ⟨g2, n, e2, s2, a2, v2⟩ := addTree_ok deg k ms g1 s1.live a1 (by omega) (by omega) (by omega)
    refine ⟨g2, n, by simp only [addTree, if_pos hgt, e1, e2], s1.trans s2, a2, ?_⟩
    intro cells ps hp
    obtain ⟨qs, hq, hx⟩ := v1 cells ps hp
    have := v2 cells qs hq
    rwa [show xorAll qs = xorAll ps from funext hx] at this

theorem logN_spec {n : Nat} (h : 0 < n) : 2 ^ Nat.log2 (nextPowerOfTwo n) < 2 * n ∧ n ≤ 2 ^ Nat.log2 (nextPowerOfTwo n) := by
  unfold nextPowerOfTwo
  by_cases h1 : n ≤ 1
  · rw [if_pos h1]
    have : n = 1 := by omega
    subst this
    exact ⟨by decide, by decide⟩
  · rw [if_neg h1, Nat.log2_two_pow, Nat.pow_succ]
    have a := Nat.log2_self_le (n := n - 1) (by omega)
    have b := Nat.lt_log2_self (n := n - 1)
    rw [Nat.pow_succ] at b
    omega

theorem pack_ok {deg : Nat} {io : Nat → FheOp → Prop} {g : FGraph} (hl : Live g) {ns : List Nat} (hn : AreNodes g .glwe1 ns) (h0 : 0 < ns.length)
    (hd : ns.length ≤ deg) :
    ∃ g' p, pack deg ns g = some (g', p) ∧ p.bitLen = ns.length ∧ Step deg io g g' ∧ AreNodes g' .glwe1 [p.id] ∧
      ∀ cells bits, Holds deg cells g .glwe1 ns bits → FEval deg cells g' p.id (.glwe1 fun j => bits.getD j false) := by
  obtain ⟨g1, ms, e1, s1, a1, l1, v1⟩ := shiftBits_ok deg ns 0 g hl hn (by omega)
  have hlog := logN_spec h0
  obtain ⟨g2, n, e2, s2, a2, v2⟩ := addTree_ok deg _ ms g1 s1.live a1 (by omega) (by rw [l1]; exact hlog.1) (by rw [l1]; exact hlog.2)
  refine ⟨g2, ⟨ns.length, n⟩, ?_, rfl, s1.trans s2, a2, ?_⟩
  · unfold pack
    simp only [if_pos hd, if_pos h0, gt_iff_lt, e1, e2]
  · intro cells bits hb
    have := v2 cells _ (v1 cells bits hb)
    rwa [show xorAll (monos 0 bits) = fun j => bits.getD j false by funext j; rw [xorAll_monos]; simp] at this

theorem unpackFrom_ok (deg id : Nat) {io : Nat → FheOp → Prop} : ∀ (k i : Nat) (g : FGraph), Live g → (g.weight id).isSome →
    ∃ g' ms, unpackFrom id k i g = some (g', ms) ∧ Grow g g' ∧ AreNodes g' .lwe1 ms ∧ ms.length = k ∧
      (i + k ≤ deg → AreNodes g .glwe1 [id] → Good deg io g → Good deg io g') ∧
      (i + k ≤ deg → ∀ cells p, FEval deg cells g id (.glwe1 p) → Holds deg cells g' .lwe1 ms ((List.range' i k).map p))
  | 0, i, g, hl, _ => ⟨g, [], rfl, Grow.refl hl, (by intro n hn; cases hn), rfl, fun _ _ h => h, fun _ _ _ _ => .nil⟩
  | k + 1, i, g, hl, hw => by
    have he := addEdge_ext1 (op := .sampleExtract i) (es := []) (k := FheEdge.unary) hw
    have hs : Grow g (ext1 g (.sampleExtract i) [(id, .unary)]) := ⟨ext1_live hl (by simpa using hw), ext1_ext _ _ _⟩
    obtain ⟨g2, ms, h2, s2, a2, l2, q2, v2⟩ := unpackFrom_ok deg id k (i + 1) _ hs.live (by rw [ext1_old hw]; exact hw)
    refine ⟨g2, g.nodes.length :: ms, ?_, hs.trans s2, AreNodes.cons.2 ⟨⟨.sampleExtract i, (s2.ext _ _ (ext1_weight _ _ _)).1, rfl⟩, a2⟩, by simp [l2], fun hd hn hg => ?_, ?_⟩
    · simp only [unpackFrom, addNode_ext1, he, h2]
    · refine q2 (by omega) (nodes_ext hs.ext hn) (ext1_good1 hl (Or.inl (Internal.of rfl (by intro t c h; cases h))) (AreNodes.cons.1 hn).1 (fun cells v hv => ?_) hg)
      obtain ⟨p, rfl⟩ := Val.of_glwe1 hv
      simp only [execOp, if_pos (show i < deg by omega)]; rfl
    · intro hd cells p hp
      rw [List.range'_succ, List.map_cons]
      refine .cons (s2.ext.eval (ext1_eval hl (fun _ => .glwe1 p) (by simpa using hp) ?_)) (v2 (by omega) cells p (hs.ext.eval hp))
      simp only [List.map_cons, List.map_nil, execOp, if_pos (show i < deg by omega)]
      rfl

theorem selectBits_ok (deg : Nat) {io : Nat → FheOp → Prop} {sel : Nat} : ∀ (ts fs : List Nat) (g : FGraph), Live g → (g.weight sel).isSome →
    (∀ n ∈ ts, (g.weight n).isSome) → (∀ n ∈ fs, (g.weight n).isSome) → ts.length = fs.length →
    ∃ g' ms, selectBits sel ts fs g = some (g', ms) ∧ Grow g g' ∧ AreNodes g' .glwe1 ms ∧ ms.length = ts.length ∧
      (AreNodes g .ggsw1 [sel] → AreNodes g .glwe1 ts → AreNodes g .glwe1 fs → Good deg io g → Good deg io g') ∧
      ∀ cells s vt vf, FEval deg cells g sel (.ggsw1 s) → Holds deg cells g .glwe1 ts vt → Holds deg cells g .glwe1 fs vf →
        Holds deg cells g' .glwe1 ms (bif s then vt else vf)
  | [], [], g, hl, _, _, _, _ => ⟨g, [], rfl, Grow.refl hl, (by intro n hn; cases hn), rfl, fun _ _ _ h => h, fun cells s vt vf _ h h' => by
      cases h; cases h'; cases s <;> exact .nil⟩
  | t :: ts, f :: fs, g, hl, hw, ht, hf, hlen => by
    have ht' := ht t (by simp)
    have hf' := hf f (by simp)
    have he1 := addEdge_ext1 (op := .cmux) (es := []) (k := FheEdge.low) hf'
    have he2 := addEdge_ext1 (op := .cmux) (es := [(f, .low)]) (k := FheEdge.high) ht'
    have he3 := addEdge_ext1 (op := .cmux) (es := [(t, .high), (f, .low)]) (k := FheEdge.sel) hw
    have hs : Grow g (ext1 g .cmux [(sel, .sel), (t, .high), (f, .low)]) := ⟨ext1_live hl (by
      intro p hp
      simp only [List.mem_cons, List.not_mem_nil, or_false] at hp
      rcases hp with rfl | rfl | rfl
      · exact hw
      · exact ht'
      · exact hf'), ext1_ext _ _ _⟩
    obtain ⟨g2, ms, h2, s2, a2, l2, q2, v2⟩ := selectBits_ok deg ts fs _ hs.live (by rw [ext1_old hw]; exact hw)
      (fun n hn => by rw [ext1_old (ht n (by simp [hn]))]; exact ht n (by simp [hn]))
      (fun n hn => by rw [ext1_old (hf n (by simp [hn]))]; exact hf n (by simp [hn])) (by simpa using hlen)
    refine ⟨g2, g.nodes.length :: ms, ?_, hs.trans s2, AreNodes.cons.2 ⟨⟨.cmux, (s2.ext _ _ (ext1_weight _ _ _)).1, rfl⟩, a2⟩, by simp [l2], fun n1 n2 n3 hg => ?_, ?_⟩
    · simp only [selectBits, addNode_ext1, he1, he2, he3, h2]
    · obtain ⟨⟨o1, w1, t1⟩, _⟩ := AreNodes.cons.1 n1
      obtain ⟨⟨o2, w2, t2⟩, m2⟩ := AreNodes.cons.1 n2
      obtain ⟨⟨o3, w3, t3⟩, m3⟩ := AreNodes.cons.1 n3
      refine q2 (nodes_ext hs.ext n1) (nodes_ext hs.ext m2) (nodes_ext hs.ext m3) (ext1_good hl (Or.inl (Internal.of rfl (by intro t c h; cases h))) ?_ ?_ hg)
      · intro p hp
        simp only [List.mem_cons, List.not_mem_nil, or_false] at hp
        rcases hp with rfl | rfl | rfl
        · exact ⟨_, _, w1, t1⟩
        · exact ⟨_, _, w2, t2⟩
        · exact ⟨_, _, w3, t3⟩
      · intro cells v hc hv
        obtain ⟨x, hx⟩ := Val.of_ggsw1 (feval_type hc (hv (sel, .sel) (by simp)) w1 t1)
        obtain ⟨y, hy⟩ := Val.of_glwe1 (feval_type hc (hv (t, .high) (by simp)) w2 t2)
        obtain ⟨z, hz⟩ := Val.of_glwe1 (feval_type hc (hv (f, .low) (by simp)) w3 t3)
        simp only at hx hy hz
        simp only [List.map_cons, List.map_nil]
        rw [hx, hy, hz]; rfl
    · intro cells s vt vf hsel hvt hvf
      cases hvt with
      | @cons _ b _ bs hb hbs =>
        cases hvf with
        | @cons _ c _ cs hc hcs =>
          have hr := v2 cells s bs cs (hs.ext.eval hsel) (holds_ext hs.ext hbs) (holds_ext hs.ext hcs)
          have hh : FEval deg cells g2 g.nodes.length (ctOf .glwe1 (bif s then b else c)) := by
            apply s2.ext.eval
            have hst : sel ≠ t := by rintro rfl; have := fdet hsel hb; cases this
            have hsf : sel ≠ f := by rintro rfl; have := fdet hsel hc; cases this
            refine ext1_eval hl (fun n => if n = sel then .ggsw1 s else if n = t then ctOf .glwe1 b else ctOf .glwe1 c) ?_ ?_
            · intro e he
              simp only [List.mem_cons, List.not_mem_nil, or_false] at he
              rcases he with rfl | rfl | rfl
              · simp only [if_true]; exact hsel
              · simp only [if_neg (Ne.symm hst), if_true]; exact hb
              · simp only [if_neg (Ne.symm hsf)]
                by_cases hft : f = t
                · subst hft; simp only [if_true]; exact hb
                · rw [if_neg hft]; exact hc
            · simp only [List.map_cons, List.map_nil, if_true, if_neg (Ne.symm hst), if_neg (Ne.symm hsf)]
              by_cases hft : f = t
              · subst hft
                have hbc := fdet hb hc
                simp only [if_true]
                have hbc' : b = c := by
                  have := congrArg Val.bit hbc
                  rwa [ctOf_bit, ctOf_bit] at this
                subst hbc'
                cases s <;> rfl
              · rw [if_neg hft]; cases s <;> rfl
          cases s
          · exact .cons hh hr
          · exact .cons hh hr

end Spf.Fluent
