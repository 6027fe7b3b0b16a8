import Verif.Model.Pbs
import Verif.Proof.Ggsw
import Verif.Props.Torus
import Mathlib.Data.Int.ModEq
/-! Lookup tables and blind rotation. -/
namespace Spf.Tfhe
open Spf.Spec Spf.Props

/-! ### negacyclic rotation of lists -/

theorem xpow_unit {R : Type} [CommRing R] {N : Nat} (hN : 0 < N) (d : Nat) {x y : Nega R N} (h : xcls N ^ d * x = xcls N ^ d * y) : x = y := by
  have h1 : (xcls N : Nega R N) ^ (d * (2 * N - 1)) * xcls N ^ d = 1 := by
    rw [← pow_add, show d * (2 * N - 1) + d = 2 * N * d by
      obtain ⟨m, hm⟩ : ∃ m, 2 * N = m + 1 := ⟨2 * N - 1, by omega⟩
      rw [hm, Nat.add_sub_cancel]; ring, pow_mul, mul_comm 2 N, pow_mul, xcls_pow]
    simp
  have h2 := congrArg (fun z => xcls N ^ (d * (2 * N - 1)) * z) h
  simp only [← mul_assoc, h1, one_mul] at h2
  exact h2

/-- moving the first part to the end and negating it divides by a power of `X` -/
theorem cls_rot {R : Type} [CommRing R] {N : Nat} (u w : List R) (h : u.length + w.length = N) :
    xcls N ^ u.length * cls N (w ++ u.map fun x => -x) = cls N (u ++ w) := by
  rw [cls_append, cls_append, cls_neg]
  have : (xcls N : Nega R N) ^ u.length * xcls N ^ w.length = -1 := by rw [← pow_add, h, xcls_pow]
  calc xcls N ^ u.length * (cls N w + xcls N ^ w.length * -cls N u)
      = xcls N ^ u.length * cls N w + (xcls N ^ u.length * xcls N ^ w.length) * -cls N u := by ring
    _ = _ := by rw [this]; ring

/-- dividing by `X^d` moves coefficient `d + i` to position `i` -/
theorem rot_get {R : Type} [CommRing R] {N : Nat} (d : Nat) (p q : List R) (hp : p.length = N) (hq : q.length = N)
    (h : xcls N ^ d * cls N q = cls N p) (i : Nat) (hi : d + i < N) : q[i]? = p[d + i]? := by
  have h1 := cls_rot (N := N) (p.take d) (p.drop d) (by simp; omega)
  rw [List.take_append_drop, List.length_take, show min d p.length = d by omega, ← h] at h1
  have h2 : p.drop d ++ (p.take d).map (fun x => -x) = q :=
    cls_inj N _ _ (by simp; omega) hq (xpow_unit (by omega) d h1)
  rw [← h2, List.getElem?_append_left (by simp; omega), List.getElem?_drop]

/-! ### the table -/

variable {W : Nat}

theorem mapM_range {α : Type} [Inhabited α] (f : Nat → Option α) : ∀ (n : Nat), (∀ i < n, (f i).isSome) →
    ∃ l, (List.range n).mapM f = some l ∧ l.length = n ∧ ∀ i < n, l[i]? = f i := by
  intro n h
  have : ∀ l : List Nat, (∀ i ∈ l, (f i).isSome) → l.mapM f = some (l.map fun i => (f i).getD default) := by
    intro l
    induction l with
    | nil => intro _; rfl
    | cons a l ih =>
      intro h
      obtain ⟨x, hx⟩ := Option.isSome_iff_exists.1 (h a (by simp))
      rw [List.mapM_cons, ih fun i hi => h i (by simp [hi]), hx]
      simp [hx]
  refine ⟨_, this _ fun i hi => h i (by simpa using hi), by simp, fun i hi => ?_⟩
  obtain ⟨x, hx⟩ := Option.isSome_iff_exists.1 (h i hi)
  simp [hi, hx]

/-- what the caller of `generate_lut` has to provide -/
def MapsOk (bits : Nat) (maps : List (Nat → Option Nat)) : Prop :=
  ∀ f ∈ maps, ∀ j < 2 ^ bits, ∃ x, f j = some x ∧ x < 2 ^ bits

theorem lutEntry_isSome {bits : Nat} (hb : bits ≤ W) (hW : W - bits < 64) {maps : List (Nat → Option Nat)} (hm : MapsOk bits maps) (cv j k : Nat)
    (hj : j < 2 ^ bits) : (lutEntry W bits maps cv j k).isSome := by
  simp only [lutEntry]
  cases hf : maps[k % cv]? with
  | none => simp only [if_pos (show 0 < 2 ^ bits ∧ bits ≤ W ∧ W - bits < 64 from ⟨Nat.two_pow_pos _, hb, hW⟩)]; rfl
  | some f =>
    obtain ⟨x, h1, h2⟩ := hm f (List.mem_of_getElem? hf) j hj
    simp only [h1, if_pos (show x < 2 ^ bits ∧ bits ≤ W ∧ W - bits < 64 from ⟨h2, hb, hW⟩)]; rfl

theorem lutEntry_eq {bits : Nat} (hb : bits ≤ W) (hW : W - bits < 64) {maps : List (Nat → Option Nat)} {cv j k x : Nat}
    {f : Nat → Option Nat} (hf : maps[k % cv]? = some f) (hx : f j = some x) (hlt : x < 2 ^ bits) :
    lutEntry W bits maps cv j k = some (BitVec.ofNat W (x * 2 ^ (W - bits))) := by
  simp only [lutEntry, hf, hx, if_pos (show x < 2 ^ bits ∧ bits ≤ W ∧ W - bits < 64 from ⟨hlt, hb, hW⟩)]

/-- The table, rotated back by half a slot, holds the function values in its slots. -/
theorem generateLut_spec {n bits logV : Nat} (hbn : bits ≤ n) (hb31 : bits < 31) (hb : bits ≤ W) (hW : W - bits < 64)
    (maps : List (Nat → Option Nat)) (hm : MapsOk bits maps) (hv : ceilLog2 maps.length = some logV) (buf : List (BitVec W))
    (hbuf : buf.length = 2 ^ n) :
    ∃ L L0 : List (BitVec W), generateLut bits maps buf = some L ∧ L.length = 2 ^ n ∧ L0.length = 2 ^ n ∧
      xcls (2 ^ n) ^ (2 ^ (n - bits) / 2) * cls (2 ^ n) L = cls (2 ^ n) L0 ∧
      ∀ j k, j < 2 ^ bits → k < 2 ^ (n - bits) → L0[j * 2 ^ (n - bits) + k]? = lutEntry W bits maps (2 ^ logV) j k := by
  have hst : buf.length / 2 ^ bits = 2 ^ (n - bits) := by rw [hbuf, Nat.pow_div hbn (by decide)]
  have hpq : 2 ^ bits * 2 ^ (n - bits) = 2 ^ n := by rw [← Nat.pow_add]; congr 1; omega
  have hsp := Nat.two_pow_pos (n - bits)
  have hdiv : ∀ i < 2 ^ n, i / 2 ^ (n - bits) < 2 ^ bits := fun i hi => by
    rw [Nat.div_lt_iff_lt_mul hsp, hpq]; exact hi
  obtain ⟨L0, h1, h2, h3⟩ := mapM_range (fun i => if i < 2 ^ bits * 2 ^ (n - bits) then
      lutEntry W bits maps (2 ^ logV) (i / 2 ^ (n - bits)) (i % 2 ^ (n - bits)) else some (buf.getD i 0)) (2 ^ n) (by
    intro i hi
    simp only [if_pos (show i < 2 ^ bits * 2 ^ (n - bits) by omega)]
    exact lutEntry_isSome hb hW hm _ _ _ (hdiv i hi))
  have hfill : lutFill bits maps (2 ^ logV) (2 ^ (n - bits)) buf = some L0 := by rw [lutFill, hbuf]; exact h1
  have hhalf : 2 ^ (n - bits) / 2 ≤ 2 ^ n := le_trans (Nat.div_le_self _ _) (Nat.pow_le_pow_right (by decide) (by omega))
  have hL : rotL (negateRange L0 0 (2 ^ (n - bits) / 2)) (2 ^ (n - bits) / 2) =
      L0.drop (2 ^ (n - bits) / 2) ++ (L0.take (2 ^ (n - bits) / 2)).map fun x => -x := by
    have hl : (L0.take (2 ^ (n - bits) / 2)).length = 2 ^ (n - bits) / 2 := by simp; omega
    have := negateRange_head (L0.take (2 ^ (n - bits) / 2)) (L0.drop (2 ^ (n - bits) / 2))
    rw [List.take_append_drop, hl] at this
    rw [this, rotL, List.drop_left' (by simp; omega), List.take_left' (by simp; omega)]
  refine ⟨rotL (negateRange L0 0 (2 ^ (n - bits) / 2)) (2 ^ (n - bits) / 2), L0, ?_, ?_, h2, ?_, ?_⟩
  · rw [generateLut, hv]
    simp only [if_pos (show bits < 31 ∧ 2 ^ bits ≤ buf.length from ⟨hb31, by rw [hbuf]; exact Nat.pow_le_pow_right (by decide) hbn⟩), hst, hfill]
  · rw [hL]; simp; omega
  · rw [hL]
    have := cls_rot (N := 2 ^ n) (L0.take (2 ^ (n - bits) / 2)) (L0.drop (2 ^ (n - bits) / 2)) (by simp; omega)
    rw [List.take_append_drop, List.length_take, show min (2 ^ (n - bits) / 2) L0.length = 2 ^ (n - bits) / 2 by omega] at this
    exact this
  · intro j k hj hk
    have hlt : j * 2 ^ (n - bits) + k < 2 ^ n := by
      rw [← hpq]
      calc j * 2 ^ (n - bits) + k < (j + 1) * 2 ^ (n - bits) := by rw [Nat.add_mul, Nat.one_mul]; omega
        _ ≤ _ := Nat.mul_le_mul_right _ hj
    rw [h3 _ hlt]
    simp only [if_pos (show j * 2 ^ (n - bits) + k < 2 ^ bits * 2 ^ (n - bits) by omega)]
    rw [Nat.mul_comm j, Nat.mul_add_div hsp, Nat.mul_add_mod, Nat.div_eq_of_lt hk, Nat.mod_eq_of_lt hk, Nat.add_zero]

/-! ### blind rotation -/

theorem monomial_phase {n k : Nat} (a : Glwe (BitVec W)) (d : Int) (sk : List (List (BitVec W))) (ha : a.valid k (2 ^ n)) (hsk : KeyFor sk k (2 ^ n)) :
    ∃ c, glweMonomial a d = some c ∧ c.valid k (2 ^ n) ∧
      (0 ≤ d → phG (2 ^ n) sk c = xcls (2 ^ n) ^ d.toNat * phG (2 ^ n) sk a) ∧
      (d < 0 → xcls (2 ^ n) ^ (-d).toNat * phG (2 ^ n) sk c = phG (2 ^ n) sk a) := by
  have hN : isPow2 (2 ^ n) = true := isPow2_iff.mpr ⟨n, rfl⟩
  have hpos := Nat.two_pow_pos n
  obtain ⟨c, ma, h1, h2, h3, h4, -⟩ := C52_monomial n k a d sk ha hsk
  obtain ⟨ma', e1, e2, e3⟩ := decrypt_phase hN a sk ha hsk.2
  obtain ⟨mc, f1, f2, f3⟩ := decrypt_phase hN c sk h2 hsk.2
  rw [e1] at h3
  obtain rfl := Option.some.inj h3
  obtain ⟨q, q1, q2, q3, q4⟩ := C46_rotation ma' d (by intro e; rw [e] at e2; simp at e2; omega)
  rw [f1, q1] at h4
  obtain rfl := Option.some.inj h4
  rw [e2] at q3 q4
  exact ⟨c, h1, h2, fun hd => by rw [← f3, ← e3]; exact q3 hd, fun hd => by rw [← f3, ← e3]; exact q4 hd⟩

theorem Small.xpow {N A : Nat} {x : Nega (BitVec W) N} (hx : Small N A x) : ∀ d, Small N A (xcls N ^ d * x)
  | 0 => by simpa using hx
  | d + 1 => by rw [pow_succ', mul_assoc]; exact (Small.xpow hx d).xmul

/-- sum of the selected elements, as a natural number -/
def selSum : List (BitVec W) → List Bool → Nat
  | a :: as, s :: ss => (if s then a.toNat else 0) + selSum as ss
  | _, _ => 0

/-- the Fourier errors are bounded by `F` -/
def FftErr (k N F : Nat) (fe : Glwe (BitVec W)) : Prop := fe.valid k N ∧ ∀ p ∈ fe.b :: fe.a, ∀ x ∈ p, x.toInt.natAbs ≤ F

theorem small_of_bound {N F : Nat} {p : List (BitVec W)} (hlen : p.length = N) (h : ∀ x ∈ p, x.toInt.natAbs ≤ F) : Small N F (cls N p) :=
  ⟨p.map BitVec.toInt, by simpa using hlen, by
    intro e he
    obtain ⟨z, hz, rfl⟩ := List.mem_map.1 he
    exact h z hz, by simp [List.map_map, Function.comp_def]⟩

theorem pbsLoop_spec {n k E S F : Nat} {r : Radix} (hl : 0 < r.log) (hc : 0 < r.count) (hlt : r.log * r.count < W)
    (sk : List (List (BitVec W))) (hsk : KeyFor sk k (2 ^ n)) (hS : ∀ s ∈ sk, Small (2 ^ n) S (cls (2 ^ n) s)) (fe : Nat → Glwe (BitVec W))
    (hfe : ∀ i, FftErr k (2 ^ n) F (fe i)) : ∀ (i : Nat) (as : List (BitVec W)) (bits : List Bool) (gs : List (List (List (Glwe (BitVec W)))))
    (acc : Glwe (BitVec W)), as.length = bits.length → List.Forall₂ (fun b g => GgswOk k (2 ^ n) r.log r.count E sk (if b then 1 else 0) g) bits gs →
    acc.valid k (2 ^ n) → ∃ out, pbsLoop k (2 ^ n) r fe i as gs acc = some out ∧ out.valid k (2 ^ n) ∧
      Small (2 ^ n) (as.length * cmuxBound W k (2 ^ n) r S E F) (phG (2 ^ n) sk out - xcls (2 ^ n) ^ selSum as bits * phG (2 ^ n) sk acc)
  | i, [], [], _, acc, _, .nil, hacc => ⟨acc, rfl, hacc, by simpa [selSum] using small_zero⟩
  | _, [], _ :: _, _, _, h, _, _ => by simp at h
  | _, _ :: _, [], _, _, h, _, _ => by simp at h
  | i, a :: as, b :: bits, g :: gs, acc, hlen, .cons hg hgs, hacc => by
    have hN : isPow2 (2 ^ n) = true := isPow2_iff.mpr ⟨n, rfl⟩
    obtain ⟨rot, r1, r2, r3, -⟩ := monomial_phase acc (a.toNat : Int) sk hacc hsk
    have r3' := r3 (by omega)
    rw [Int.toNat_natCast] at r3'
    obtain ⟨f1, f2⟩ := hfe i
    obtain ⟨acc', c1, c2, c3⟩ := cmux_spec (F := F) hN hl hc hlt sk hsk.1 hS b g hg (fe i) acc rot f1 hacc r2
      (fun a ha => small_of_bound (f1.2.1 a ha) (f2 a (by simp [ha]))) (small_of_bound f1.2.2 (f2 _ (by simp)))
    obtain ⟨out, o1, o2, o3⟩ := pbsLoop_spec hl hc hlt sk hsk hS fe hfe (i + 1) as bits gs acc' (by simpa using hlen) hgs c2
    refine ⟨out, by rw [pbsLoop, r1]; simp only [c1]; exact o1, o2, ?_⟩
    have hsel : phG (2 ^ n) sk (if b then rot else acc) = xcls (2 ^ n) ^ (if b then a.toNat else 0) * phG (2 ^ n) sk acc := by
      cases b
      · simp
      · simpa using r3'
    rw [hsel] at c3
    have := o3.add (c3.xpow (selSum as bits))
    rw [List.length_cons, Nat.add_mul, Nat.one_mul]
    convert this using 1
    rw [selSum, pow_add]; ring

/-! ### modulus switching of the phase -/

theorem modSwitch_one {chi v K : Nat} (x : BitVec W) (hK : K < W) (hchi : chi < W) (hv : v < K) :
    ∃ z : BitVec W, ∃ y e : Int, modulusSwitch x chi v K = some z ∧ (z.toNat : Int) ≡ y * 2 ^ v [ZMOD 2 ^ K] ∧
      (x.toNat : Int) * 2 ^ chi ≡ y * 2 ^ (W - (K - v)) + e [ZMOD 2 ^ W] ∧ e.natAbs ≤ 2 ^ (W - (K - v) - 1) := by
  obtain ⟨z, y, err, h1, h2, h3, h4, h5, -⟩ := C54_rounds W x chi v K hK hchi hv
  cases hm : modulusSwitch x chi v K with
  | none => rw [hm] at h1; simp at h1
  | some b =>
    rw [hm] at h1
    simp only [Option.map_some, Option.some.injEq] at h1
    refine ⟨b, y, err, rfl, ?_, ?_, ?_⟩
    · have : ((z % 2 ^ K : Nat) : Int) = ((y * 2 ^ v % 2 ^ K : Nat) : Int) := by rw [h5]
      rw [Int.ModEq, h1]
      push_cast at this
      exact this
    · rw [← h2]
      push_cast
      exact (Int.mod_modEq _ _).symm
    · have : (2 ^ (W - (K - v) - 1) : Int) = ((2 ^ (W - (K - v) - 1) : Nat) : Int) := by push_cast; rfl
      rw [this] at h3 h4
      omega

theorem modSwitch_list {chi v K : Nat} (hK : K < W) (hchi : chi < W) (hv : v < K) : ∀ (a : List (BitVec W)) (s : List Bool), a.length = s.length →
    ∃ A : List (BitVec W), ∃ y e : Int, a.mapM (fun x => modulusSwitch x chi v K) = some A ∧ A.length = a.length ∧
      (selSum A s : Int) ≡ y * 2 ^ v [ZMOD 2 ^ K] ∧ (selSum a s : Int) * 2 ^ chi ≡ y * 2 ^ (W - (K - v)) + e [ZMOD 2 ^ W] ∧
      e.natAbs ≤ s.count true * 2 ^ (W - (K - v) - 1)
  | [], [], _ => ⟨[], 0, 0, rfl, rfl, by simp [selSum], by simp [selSum], by simp⟩
  | [], _ :: _, h => by simp at h
  | _ :: _, [], h => by simp at h
  | x :: a, b :: s, h => by
    obtain ⟨z, y, e, h1, h2, h3, h4⟩ := modSwitch_one x hK hchi hv
    obtain ⟨A, Y, E, g1, g2, g3, g4, g5⟩ := modSwitch_list hK hchi hv a s (by simpa using h)
    have hm : (x :: a).mapM (fun x => modulusSwitch x chi v K) = some (z :: A) := by rw [List.mapM_cons, h1, g1]; rfl
    have hlen : e.natAbs + E.natAbs ≤ (s.count true + 1) * 2 ^ (W - (K - v) - 1) := by rw [Nat.add_mul, Nat.one_mul]; omega
    cases b with
    | true =>
      refine ⟨z :: A, y + Y, e + E, hm, by simp [g2], ?_, ?_, ?_⟩
      · have := h2.add g3
        rw [← Int.add_mul] at this
        simpa [selSum] using this
      · have := h3.add g4
        have e1 : (x.toNat : Int) * 2 ^ chi + (selSum a s : Int) * 2 ^ chi = (selSum (x :: a) (true :: s) : Int) * 2 ^ chi := by
          simp only [selSum, if_true]; push_cast; ring
        have e2 : y * 2 ^ (W - (K - v)) + e + (Y * 2 ^ (W - (K - v)) + E) = (y + Y) * 2 ^ (W - (K - v)) + (e + E) := by ring
        rwa [e1, e2] at this
      · rw [List.count_cons_self]; omega
    | false =>
      refine ⟨z :: A, Y, E, hm, by simp [g2], by simpa [selSum] using g3, by simpa [selSum] using g4, ?_⟩
      rw [List.count_cons_of_ne (by decide)]; omega

/-- the pure arithmetic: the rotation amount is the message slot plus a small multiple of `2^v` -/
theorem phase_arith {K v bits m w : Nat} (t : Nat) (ht : t = K - v) (hv : v < K) (hbt : bits + 1 ≤ t) (hK : K < w)
    {zb zA yb yA xb xA eb eA e : Int}
    (h1 : zb ≡ yb * 2 ^ v [ZMOD 2 ^ K]) (h2 : zA ≡ yA * 2 ^ v [ZMOD 2 ^ K])
    (h3 : xb ≡ yb * 2 ^ (w - t) + eb [ZMOD 2 ^ w]) (h4 : xA ≡ yA * 2 ^ (w - t) + eA [ZMOD 2 ^ w])
    (h5 : xb - xA ≡ m * 2 ^ (w - bits - 1) + e [ZMOD 2 ^ w])
    (hs : e.natAbs + eb.natAbs + eA.natAbs < 2 ^ (w - bits - 2)) :
    ∃ δ : Int, zb - zA ≡ m * 2 ^ (K - 1 - bits) + 2 ^ v * δ [ZMOD 2 ^ K] ∧ 2 * (2 ^ v * δ).natAbs < 2 ^ (K - 1 - bits) := by
  have hwt : (2 ^ w : Int) = 2 ^ (w - t) * 2 ^ t := by rw [← pow_add]; congr 1; omega
  have hm : (m * 2 ^ (w - bits - 1) : Int) = 2 ^ (w - t) * (m * 2 ^ (t - bits - 1)) := by
    rw [show w - bits - 1 = (w - t) + (t - bits - 1) by omega, pow_add]; ring
  have h6 : (yb * 2 ^ (w - t) + eb) - (yA * 2 ^ (w - t) + eA) ≡ m * 2 ^ (w - bits - 1) + e [ZMOD 2 ^ w] :=
    ((h3.sub h4).symm).trans h5
  obtain ⟨c, hc⟩ := h6.dvd
  have h7 : e - eb + eA = 2 ^ (w - t) * (yb - yA - m * 2 ^ (t - bits - 1) + 2 ^ t * c) := by
    rw [hm, hwt] at hc
    linear_combination hc
  refine ⟨yb - yA - m * 2 ^ (t - bits - 1) + 2 ^ t * c, ?_, ?_⟩
  · have h8 := h1.sub h2
    refine h8.trans ?_
    rw [Int.modEq_iff_dvd]
    refine ⟨c, ?_⟩
    have e1 : (2 ^ K : Int) = 2 ^ v * 2 ^ t := by rw [← pow_add]; congr 1; omega
    have e2 : (2 ^ (K - 1 - bits) : Int) = 2 ^ v * 2 ^ (t - bits - 1) := by rw [← pow_add]; congr 1; omega
    rw [e1, e2]; ring
  · have h8 : (2 ^ (w - t) : Nat) * (yb - yA - m * 2 ^ (t - bits - 1) + 2 ^ t * c).natAbs < 2 ^ (w - bits - 2) := by
      have : (e - eb + eA).natAbs = 2 ^ (w - t) * (yb - yA - m * 2 ^ (t - bits - 1) + 2 ^ t * c).natAbs := by
        rw [h7, Int.natAbs_mul, Int.natAbs_pow]; rfl
      omega
    rw [Int.natAbs_mul, Int.natAbs_pow, show (2 : Int).natAbs = 2 from rfl]
    generalize (yb - yA - m * 2 ^ (t - bits - 1) + 2 ^ t * c).natAbs = D at h8 ⊢
    have h9 : 2 ^ (w - t) * (2 * D) < 2 ^ (w - t) * 2 ^ (t - bits - 1) := by
      calc 2 ^ (w - t) * (2 * D) = 2 * (2 ^ (w - t) * D) := by ring
        _ < 2 * 2 ^ (w - bits - 2) := by omega
        _ = 2 ^ (w - t) * 2 ^ (t - bits - 1) := by
          rw [← pow_succ', ← pow_add]; congr 1; omega
    have h10 := Nat.lt_of_mul_lt_mul_left h9
    calc 2 * (2 ^ v * D) = 2 ^ v * (2 * D) := by ring
      _ < 2 ^ v * 2 ^ (t - bits - 1) := (Nat.mul_lt_mul_left (Nat.two_pow_pos v)).2 h10
      _ = 2 ^ (K - 1 - bits) := by rw [← pow_add]; congr 1; omega

/-- the key of `lwe_secret_key.rs` for a list of bits -/
def bitKey (W : Nat) (s : List Bool) : List (BitVec W) := s.map fun b => if b then 1 else 0

theorem dotAcc_bits : ∀ (a : List (BitVec W)) (s : List Bool), dotAcc a (bitKey W s) 0 = BitVec.ofNat W (selSum a s)
  | [], _ => by simp [dotAcc, selSum]
  | _ :: _, [] => by simp [dotAcc, selSum, bitKey]
  | x :: a, b :: s => by
    have := dotAcc_bits a s
    rw [bitKey, List.map_cons, dotAcc_cons, ← bitKey, this, selSum, BitVec.ofNat_add]
    cases b <;> simp

theorem toNat_modEq_sub (x y : BitVec W) : ((x - y).toNat : Int) ≡ x.toNat - y.toNat [ZMOD 2 ^ W] := by
  have h : x = (x - y) + y := by ring
  have h2 := congrArg BitVec.toNat h
  rw [BitVec.toNat_add] at h2
  have h3 : (x.toNat : Int) ≡ (x - y).toNat + y.toNat [ZMOD 2 ^ W] := by
    rw [h2]; push_cast
    exact Int.mod_modEq _ _
  have := (h3.sub_right (y.toNat : Int)).symm
  simpa using this

theorem near_modEq {B : Nat} {x : BitVec W} {q : Nat} (h : Near B x (BitVec.ofNat W q)) :
    ∃ e : Int, e.natAbs ≤ B ∧ (x.toNat : Int) ≡ q + e [ZMOD 2 ^ W] := by
  obtain ⟨e, he, rfl⟩ := h
  refine ⟨e, he, ?_⟩
  rw [BitVec.toNat_add, BitVec.toNat_ofNat]
  push_cast
  refine (Int.mod_modEq _ _).trans ((Int.mod_modEq _ _).add ?_)
  rw [BitVec.toNat_ofInt]
  have : ((e % (2 ^ W : Nat)).toNat : Int) = e % (2 ^ W : Nat) := Int.toNat_of_nonneg (Int.emod_nonneg _ (by positivity))
  rw [this]; push_cast
  exact Int.mod_modEq _ _

theorem toNat_mul_modEq (x : BitVec W) (c : Nat) : ((x * BitVec.ofNat W c).toNat : Int) ≡ x.toNat * c [ZMOD 2 ^ W] := by
  rw [BitVec.toNat_mul, BitVec.toNat_ofNat]
  push_cast
  refine (Int.mod_modEq _ _).trans ?_
  exact (Int.ModEq.refl _).mul (Int.mod_modEq _ _)

theorem xcls_pow_congr {N a b : Nat} (h : (a : Int) ≡ b [ZMOD ((2 * N : Nat) : Int)]) : (xcls N : Nega (BitVec W) N) ^ a = xcls N ^ b := by
  have : a % (2 * N) = b % (2 * N) := by
    rw [Int.natCast_modEq_iff] at h
    exact h
  rw [← xcls_pow_mod N a, ← xcls_pow_mod N b, this]

/-- slot position: half a slot plus a small multiple of `2^v` stays inside the slot and keeps the residue modulo `2^v` -/
theorem slot_pos {s v h : Nat} {D : Int} (hD : 2 * D.natAbs < s) (hdvd : (2 ^ v : Int) ∣ D) (hs : v = 0 ∨ 2 ^ v ∣ s / 2) (hs2 : v = 0 ∨ 2 ^ v ∣ s)
    (hh : h < 2 ^ v) :
    ∃ u : Nat, (u : Int) = (s / 2 : Nat) + D ∧ u + h < s ∧ (u + h) % 2 ^ v = h := by
  have h0 : 0 ≤ ((s / 2 : Nat) : Int) + D := by omega
  refine ⟨(((s / 2 : Nat) : Int) + D).toNat, Int.toNat_of_nonneg h0, ?_⟩
  rcases Nat.eq_zero_or_pos v with rfl | hv
  · simp only [pow_zero, Nat.lt_one_iff] at hh
    subst hh
    refine ⟨by omega, by simp [Nat.mod_one]⟩
  · have hs := hs.resolve_left (by omega)
    have hs2 := hs2.resolve_left (by omega)
    have hu : 2 ^ v ∣ (((s / 2 : Nat) : Int) + D).toNat := by
      have : (2 ^ v : Int) ∣ ((s / 2 : Nat) : Int) + D := Int.dvd_add (by exact_mod_cast Int.natCast_dvd_natCast.2 hs) hdvd
      have h2 : (((2 ^ v : Nat) : Int)) ∣ (((((s / 2 : Nat) : Int) + D).toNat : Nat) : Int) := by
        rw [Int.toNat_of_nonneg h0]; push_cast at this ⊢; exact this
      exact Int.natCast_dvd_natCast.1 h2
    obtain ⟨a, ha⟩ := hu
    obtain ⟨b, hb⟩ := hs2
    have hlt : (((s / 2 : Nat) : Int) + D).toNat < s := by omega
    rw [ha]
    refine ⟨?_, by rw [Nat.mul_add_mod, Nat.mod_eq_of_lt hh]⟩
    rw [ha, hb] at hlt
    have hab := Nat.lt_of_mul_lt_mul_left hlt
    calc 2 ^ v * a + h < 2 ^ v * (a + 1) := by rw [Nat.mul_add, Nat.mul_one]; omega
      _ ≤ s := by rw [hb]; exact Nat.mul_le_mul_left _ hab

theorem ceilLog2_lt {m v h : Nat} (hv : ceilLog2 m = some v) (hh : h < m) : h < 2 ^ v := by
  rw [ceilLog2] at hv
  split at hv
  · simp at hv
  · rename_i hm
    have h1 : m < 2 ^ (Nat.log2 m + 1) := Nat.lt_log2_self
    split at hv
    · rename_i hp
      obtain ⟨q, rfl⟩ := isPow2_iff.1 hp
      rw [Nat.log2_two_pow] at hv
      obtain rfl := Option.some.inj hv
      exact hh
    · obtain rfl := Option.some.inj hv
      omega

/-- Generalized programmable bootstrapping. -/
theorem generalizedPbs_spec {n k E S F N' bits v chi e m h x : Nat} {r : Radix} (hl : 0 < r.log) (hc : 0 < r.count) (hlt : r.log * r.count < W)
    (hk : 0 < k) (hW64 : W - bits < 64) (hn : 0 < N') (hb0 : bits < 31)
    (hsize : (v = 0 ∧ bits ≤ n) ∨ v + bits + 1 ≤ n) (hnW : n + 1 < W) (hchi : chi < W)
    (sk : List (List (BitVec W))) (hsk : KeyFor sk k (2 ^ n)) (hS : ∀ s ∈ sk, Small (2 ^ n) S (cls (2 ^ n) s)) (s : List Bool) (hs : s.length = N')
    (bsk : List (List (List (Glwe (BitVec W))))) (hbsk : List.Forall₂ (fun b g => GgswOk k (2 ^ n) r.log r.count E sk (if b then 1 else 0) g) s bsk)
    (fe : Nat → Glwe (BitVec W)) (hfe : ∀ i, FftErr k (2 ^ n) F (fe i))
    (maps : List (Nat → Option Nat)) (hm : MapsOk bits maps) (hv : ceilLog2 maps.length = some v) (buf : List (BitVec W)) (hbuf : buf.length = 2 ^ n)
    (ct : Lwe (BitVec W)) (hct : ct.a.length = N') (hmb : m < 2 ^ bits) {f : Nat → Option Nat} (hf : maps[h]? = some f) (hx : f m = some x)
    (hin : Near e ((ct.b - dotAcc ct.a (bitKey W s) 0) * BitVec.ofNat W (2 ^ chi)) (BitVec.ofNat W (m * 2 ^ (W - bits - 1))))
    (hsmall : e + (s.count true + 1) * 2 ^ (W - (n + 1 - v) - 1) < 2 ^ (W - bits - 2)) :
    ∃ lut out y yh, lutNew k (2 ^ n) bits maps buf = some lut ∧ generalizedPbs N' k (2 ^ n) r chi v fe ct lut bsk = some out ∧ out.valid k (2 ^ n) ∧
      glweDecrypt out sk = some y ∧ y[h]? = some yh ∧
      Near (N' * cmuxBound W k (2 ^ n) r S E F) yh (BitVec.ofNat W (x * 2 ^ (W - bits))) := by
  have hN : isPow2 (2 ^ n) = true := isPow2_iff.mpr ⟨n, rfl⟩
  have hNp := Nat.two_pow_pos n
  have hbn : bits ≤ n := by omega
  have hval : r.valid W = true := by
    have := Nat.mul_comm r.log r.count
    simp only [Radix.valid, Bool.and_eq_true, decide_eq_true_eq]; omega
  -- the table
  obtain ⟨L, L0, l1, l2, l3, l4, l5⟩ := generateLut_spec hbn hb0 (show bits ≤ W by omega) hW64 maps hm hv buf hbuf
  have hlut : lutNew k (2 ^ n) bits maps buf = some ⟨(glweZero (W := W) k (2 ^ n)).a.map fun p => p.map fun _ => 0, L⟩ := by
    rw [lutNew, l1]
    simp only [glweTrivial]
    rw [if_pos (by simp [glweZero, l2])]
  have hza : ((glweZero (W := W) k (2 ^ n)).a.map fun p => p.map fun _ => (0 : BitVec W)) = List.replicate k (List.replicate (2 ^ n) 0) := by
    simp [glweZero]
  rw [hza] at hlut
  have hlv : Glwe.valid ⟨List.replicate k (List.replicate (2 ^ n) (0 : BitVec W)), L⟩ k (2 ^ n) :=
    ⟨by simp, by intro p hp; rw [List.eq_of_mem_replicate hp]; simp, l2⟩
  have hlp : phG (2 ^ n) sk ⟨List.replicate k (List.replicate (2 ^ n) (0 : BitVec W)), L⟩ = cls (2 ^ n) L := by
    simp only [phG, dotC_zeros, sub_zero]
  -- modulus switching
  have hvn : v < n + 1 := by omega
  obtain ⟨zb, yb, eb, b1, b2, b3, b4⟩ := modSwitch_one (W := W) ct.b hnW hchi hvn
  obtain ⟨A, yA, eA, a1, a2, a3, a4, a5⟩ := modSwitch_list (W := W) hnW hchi hvn ct.a s (by omega)
  have hms : lweModSwitch chi v (Nat.log2 (2 ^ n) + 1) ct = some ⟨A, zb⟩ := by rw [Nat.log2_two_pow, lweModSwitch, a1, b1]
  -- rotation of the table
  obtain ⟨acc, c1, c2, c3, c4⟩ := monomial_phase ⟨List.replicate k (List.replicate (2 ^ n) (0 : BitVec W)), L⟩ (-(zb.toNat : Int)) sk hlv hsk
  have hacc : xcls (2 ^ n) ^ zb.toNat * phG (2 ^ n) sk acc = cls (2 ^ n) L := by
    rw [← hlp]
    rcases Nat.eq_zero_or_pos zb.toNat with h0 | h0
    · rw [h0] at c3 ⊢
      have := c3 (by simp)
      simpa using this
    · have := c4 (by omega)
      rwa [neg_neg, Int.toNat_natCast] at this
  -- the loop
  obtain ⟨out, o1, o2, o3⟩ := pbsLoop_spec hl hc hlt sk hsk hS fe hfe 0 A s bsk acc (by omega) hbsk c2
  obtain ⟨y, y1, y2, y3⟩ := decrypt_phase hN out sk o2 hsk.2
  -- arithmetic of the phase
  obtain ⟨er, e1, e2⟩ := near_modEq hin
  have hph : ((ct.b.toNat : Int) * 2 ^ chi) - ((selSum ct.a s : Int) * 2 ^ chi) ≡ m * 2 ^ (W - bits - 1) + er [ZMOD 2 ^ W] := by
    have g1 := toNat_mul_modEq (ct.b - dotAcc ct.a (bitKey W s) 0) (2 ^ chi)
    have g2 := (toNat_modEq_sub ct.b (dotAcc ct.a (bitKey W s) 0)).mul_right (2 ^ chi)
    have g3 : ((dotAcc ct.a (bitKey W s) 0).toNat : Int) ≡ selSum ct.a s [ZMOD 2 ^ W] := by
      rw [dotAcc_bits, BitVec.toNat_ofNat]; push_cast; exact Int.mod_modEq _ _
    have g4 := ((Int.ModEq.refl (n := 2 ^ W) (ct.b.toNat : Int)).sub g3).mul_right (2 ^ chi)
    push_cast at g1 e2
    have := (g4.symm.trans (g2.symm.trans g1.symm)).trans e2
    rwa [Int.sub_mul] at this
  obtain ⟨δ, d1, d2⟩ := phase_arith (K := n + 1) (v := v) (bits := bits) (m := m) (w := W) (n + 1 - v) rfl hvn (by omega) hnW b2 a3 b3 a4 hph (by
    have := Nat.add_mul (s.count true) 1 (2 ^ (W - (n + 1 - v) - 1))
    rw [Nat.one_mul] at this
    omega)
  rw [show n + 1 - 1 - bits = n - bits by omega] at d1 d2
  have hhv : h < 2 ^ v := ceilLog2_lt hv (List.getElem?_eq_some_iff.1 hf).1
  obtain ⟨u, u1, u2, u3⟩ := slot_pos (s := 2 ^ (n - bits)) (v := v) (h := h) d2 (Dvd.intro _ rfl) (by
      rcases hsize with h | h
      · exact Or.inl h.1
      · right
        rw [show n - bits = (n - bits - 1) + 1 by omega, pow_succ, Nat.mul_div_cancel _ (by decide)]
        exact Nat.pow_dvd_pow 2 (by omega)) (by
      rcases hsize with h | h
      · exact Or.inl h.1
      · right; exact Nat.pow_dvd_pow 2 (by omega)) hhv
  -- the exact rotated table
  obtain ⟨ma, m1, m2, m3⟩ := decrypt_phase hN acc sk c2 hsk.2
  obtain ⟨Q, q1, q2, q3⟩ := mulByPosMonomial_spec ma (selSum A s) (by intro hh; rw [hh] at m2; simp at m2; omega)
  rw [m2, m3] at q3
  rw [m2] at q2
  have hexp : (xcls (2 ^ n) : Nega (BitVec W) (2 ^ n)) ^ (zb.toNat + 2 ^ (n - bits) / 2) = xcls (2 ^ n) ^ (selSum A s + (m * 2 ^ (n - bits) + u)) := by
    apply xcls_pow_congr
    push_cast
    rw [u1]
    have h2 := d1.add_right ((selSum A s : Int) + ((2 ^ (n - bits) / 2 : Nat) : Int))
    rw [pow_succ'] at h2
    convert h2 using 1
    · push_cast; ring
    · push_cast; ring
  have hQ : xcls (2 ^ n) ^ (m * 2 ^ (n - bits) + u) * cls (2 ^ n) Q = cls (2 ^ n) L0 := by
    rw [q3, ← mul_assoc, ← pow_add, Nat.add_comm (m * 2 ^ (n - bits) + u), ← hexp, pow_add, mul_assoc, mul_comm, mul_assoc,
      mul_comm (phG (2 ^ n) sk acc), hacc, l4]
  have hpos : m * 2 ^ (n - bits) + u + h < 2 ^ n := by
    calc m * 2 ^ (n - bits) + u + h < (m + 1) * 2 ^ (n - bits) := by rw [Nat.add_mul, Nat.one_mul]; omega
      _ ≤ 2 ^ bits * 2 ^ (n - bits) := Nat.mul_le_mul_right _ hmb
      _ = 2 ^ n := by rw [← Nat.pow_add]; congr 1; omega
  have hget := rot_get _ L0 Q l3 q2 hQ h hpos
  have hxlt : x < 2 ^ bits := by
    obtain ⟨x', h1, h2⟩ := hm f (List.mem_of_getElem? hf) m hmb
    rw [hx] at h1
    obtain rfl := Option.some.inj h1
    exact h2
  rw [Nat.add_assoc, l5 m (u + h) hmb u2, lutEntry_eq (show bits ≤ W by omega) hW64 (f := f) (by rw [u3]; exact hf) hx hxlt] at hget
  -- conclusion
  have hnear : NearPoly (A.length * cmuxBound W k (2 ^ n) r S E F) y Q := by
    apply nearPoly_of_small y2 q2
    rw [y3, q3]; exact o3
  rw [a2, hct] at hnear
  have hh : h < 2 ^ n := by omega
  refine ⟨_, out, y, y[h]'(by omega), hlut, ?_, o2, y1, List.getElem?_eq_getElem (by omega), ?_⟩
  · rw [generalizedPbs, if_pos ⟨by omega, hN, by omega, hval, by rw [← hbsk.length_eq]; exact hs, hct⟩, hms]
    simp only [c1]
    exact o1
  · have := (List.forall₂_iff_get.1 hnear).2 h (by omega) (by omega)
    simp only [List.get_eq_getElem] at this
    obtain ⟨hl', hg⟩ := List.getElem?_eq_some_iff.1 hget
    rw [hg] at this
    exact this

end Spf.Tfhe
