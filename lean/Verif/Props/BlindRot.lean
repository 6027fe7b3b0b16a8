import Verif.Model.BlindRot
import Verif.Props.Pbs
import Verif.Props.SchemeSwitch
/-! C87: blind rotation rotates the message by the encrypted amount. Torus elements are `BitVec W`; all masks, bounded noises and
bounded errors of the inverse Fourier transform are universally quantified. -/
namespace Spf.Props
open Spf.Spec Spf.Tfhe

/-- the value of the low `c` bits from bit `i` on, in place -/
theorem bits_sum (rot i : Nat) : ((rot >>> i) &&& 1) * 2 ^ i + rot / 2 ^ (i + 1) * 2 ^ (i + 1) = rot / 2 ^ i * 2 ^ i := by
  rw [Nat.and_one_is_mod, Nat.shiftRight_eq_div_pow]
  have h : rot / 2 ^ (i + 1) = rot / 2 ^ i / 2 := by rw [Nat.div_div_eq_div_mul, pow_succ]
  rw [h, pow_succ]
  generalize rot / 2 ^ i = v
  have : v = v % 2 + 2 * (v / 2) := by omega
  calc v % 2 * 2 ^ i + v / 2 * (2 ^ i * 2) = (v % 2 + 2 * (v / 2)) * 2 ^ i := by ring
    _ = v * 2 ^ i := by rw [← this]

theorem shiftRows_spec {W n k E : Nat} (hW : W ≤ 64) (r : Radix) (hl : 0 < r.log) (hc : 0 < r.count) (hlt : r.log * r.count < W) (bits : Nat)
    (hb0 : 0 < bits) (hbits : bits < W) (rot : Nat) (sk : List (List (BitVec W))) (hsk : KeyFor sk k (2 ^ n))
    (masks : Nat → Nat → Nat → List (List (BitVec W))) (hma : ∀ h i j, KeyFor (masks h i j) k (2 ^ n))
    (noise : Nat → Nat → Nat → Option (List Int)) (hno : ∀ h i j, NoiseOk (2 ^ n) E (noise h i j)) : ∀ (c i : Nat),
    ∃ gs, shiftRows k (2 ^ n) r bits rot sk masks (fun h i j => (noise h i j).map fun l => l.map (BitVec.ofInt W)) c i = some gs ∧
      List.Forall₂ (fun i g => GgswOk k (2 ^ n) r.log r.count E sk (if rot.testBit i then 1 else 0) g) (List.range' i c) gs
  | 0, i => ⟨[], rfl, .nil⟩
  | c + 1, i => by
    obtain ⟨gs, g1, g2⟩ := shiftRows_spec hW r hl hc hlt bits hb0 hbits rot sk hsk masks hma noise hno c (i + 1)
    have hNp : 0 < 2 ^ n := Nat.two_pow_pos n
    have hbit : (BitVec.ofNat W ((rot >>> i) &&& 1)) = if rot.testBit i then 1 else 0 := by
      rw [Nat.and_one_is_mod, Nat.shiftRight_eq_div_pow, Nat.testBit_eq_decide_div_mod_eq]
      rcases Nat.mod_two_eq_zero_or_one (rot / 2 ^ i) with h | h
      · simp [h]
      · rw [h]; rfl
    obtain ⟨g, h1, h2⟩ := ggsw_exists hW r hl hc hlt bits hbits ((if rot.testBit i then 1 else 0 : BitVec W) :: List.replicate (2 ^ n - 1) 0) (by simp; omega) (by
      intro x hx
      simp only [List.mem_cons] at hx
      rcases hx with rfl | hx
      · cases rot.testBit i
        · simp
        · show (BitVec.ofNat W 1).toNat < _
          rw [BitVec.toNat_ofNat, Nat.mod_eq_of_lt (Nat.one_lt_two_pow (by omega))]
          exact Nat.one_lt_two_pow (by omega)
      · rw [List.eq_of_mem_replicate hx]; simp) sk hsk (masks i) (hma i) (noise i) (hno i)
    rw [bit_cls hNp] at h2
    refine ⟨g :: gs, ?_, .cons h2 g2⟩
    rw [shiftRows, hbit, ggswEncryptScalar, if_neg (by omega)]
    rw [freshGgsw] at h1
    simp only [h1, g1]

theorem blindLoop_spec {W n k E S F : Nat} {r : Radix} (hl : 0 < r.log) (hc : 0 < r.count) (hlt : r.log * r.count < W) (rot : Nat)
    (sk : List (List (BitVec W))) (hsk : KeyFor sk k (2 ^ n)) (hS : ∀ s ∈ sk, Small (2 ^ n) S (cls (2 ^ n) s)) (fe : Nat → Glwe (BitVec W))
    (hfe : ∀ i, FftErr k (2 ^ n) F (fe i)) : ∀ (c i : Nat) (gs : List (List (List (Glwe (BitVec W))))) (acc : Glwe (BitVec W)),
    List.Forall₂ (fun i g => GgswOk k (2 ^ n) r.log r.count E sk (if rot.testBit i then 1 else 0) g) (List.range' i c) gs → acc.valid k (2 ^ n) →
    rot < 2 ^ (i + c) → ∃ out err, blindLoop k (2 ^ n) r fe i gs acc = some out ∧ out.valid k (2 ^ n) ∧ Small (2 ^ n) (c * cmuxBound W k (2 ^ n) r S E F) err ∧
      xcls (2 ^ n) ^ (rot / 2 ^ i * 2 ^ i) * (phG (2 ^ n) sk out - err) = phG (2 ^ n) sk acc
  | 0, i, gs, acc, h, hacc, hrot => by
    cases h
    refine ⟨acc, 0, rfl, hacc, by simpa using Tfhe.small_zero, ?_⟩
    rw [Nat.div_eq_of_lt (by simpa using hrot)]; simp
  | c + 1, i, gs, acc, h, hacc, hrot => by
    rw [List.range'_succ] at h
    cases h with
    | @cons _ g _ gs hg hgs =>
    have hN : isPow2 (2 ^ n) = true := isPow2_iff.mpr ⟨n, rfl⟩
    have hpos := Nat.two_pow_pos n
    obtain ⟨rt, r1, r2, -, r3⟩ := monomial_phase acc (-((2 ^ i : Nat) : Int)) sk hacc hsk
    have r3' := r3 (by have := Nat.two_pow_pos i; omega)
    rw [Int.neg_neg, Int.toNat_natCast] at r3'
    obtain ⟨f1, f2⟩ := hfe i
    obtain ⟨acc', c1, c2, c3⟩ := cmux_spec (F := F) hN hl hc hlt sk hsk.1 hS (rot.testBit i) g hg (fe i) acc rt f1 hacc r2
      (fun a ha => small_of_bound (f1.2.1 a ha) (f2 a (by simp [ha]))) (small_of_bound f1.2.2 (f2 _ (by simp)))
    obtain ⟨out, err, o1, o2, o3, o4⟩ := blindLoop_spec hl hc hlt rot sk hsk hS fe hfe c (i + 1) gs acc' hgs c2 (by rw [show i + 1 + c = i + (c + 1) by omega]; exact hrot)
    have hsel : xcls (2 ^ n) ^ (((rot >>> i) &&& 1) * 2 ^ i) * phG (2 ^ n) sk (if rot.testBit i then rt else acc) = phG (2 ^ n) sk acc := by
      rw [Nat.and_one_is_mod, Nat.shiftRight_eq_div_pow, Nat.testBit_eq_decide_div_mod_eq]
      rcases Nat.mod_two_eq_zero_or_one (rot / 2 ^ i) with h | h
      · simp [h]
      · simpa [h] using r3'
    -- move the error of this step in front of the later rotations, which are units
    obtain ⟨η, e1, e2⟩ : ∃ η, Small (2 ^ n) (cmuxBound W k (2 ^ n) r S E F) η ∧
        xcls (2 ^ n) ^ (rot / 2 ^ (i + 1) * 2 ^ (i + 1)) * η = phG (2 ^ n) sk acc' - phG (2 ^ n) sk (if rot.testBit i then rt else acc) := by
      refine ⟨xcls (2 ^ n) ^ (rot / 2 ^ (i + 1) * 2 ^ (i + 1) * (2 * 2 ^ n - 1)) * _, c3.xpow _, ?_⟩
      rw [← mul_assoc, ← pow_add, show ∀ d, d + d * (2 * 2 ^ n - 1) = 2 ^ n * (2 * d) from fun d => by
        obtain ⟨m, hm⟩ : ∃ m, 2 * 2 ^ n = m + 1 := ⟨2 * 2 ^ n - 1, by omega⟩
        rw [hm, Nat.add_sub_cancel, show 2 ^ n * (2 * d) = 2 * 2 ^ n * d by ring, hm]; ring, pow_mul, xcls_pow]
      simp
    refine ⟨out, err + η, by rw [blindLoop, r1]; simp only [c1]; exact o1, o2, ?_, ?_⟩
    · rw [Nat.add_mul, Nat.one_mul]; exact o3.add e1
    · rw [← bits_sum rot i, pow_add, ← hsel, mul_assoc]
      congr 1
      have : xcls (2 ^ n) ^ (rot / 2 ^ (i + 1) * 2 ^ (i + 1)) * (phG (2 ^ n) sk out - (err + η)) =
          xcls (2 ^ n) ^ (rot / 2 ^ (i + 1) * 2 ^ (i + 1)) * (phG (2 ^ n) sk out - err) - xcls (2 ^ n) ^ (rot / 2 ^ (i + 1) * 2 ^ (i + 1)) * η := by ring
      rw [this, o4, e2]; ring

/-- The error of one CMUX (that of `C56_cmux`): rounding of the decomposition, noise `E` of the selector, error `F` of the
inverse Fourier transform. -/
def muxError (W k N : Nat) (r : Radix) (S E F : Nat) : Nat :=
  2 ^ (W - r.log * r.count - 1) * (1 + k * N * S) + (k + 1) * (r.count * (N * (2 ^ (r.log - 1) * E))) + F * (1 + k * N * S)

theorem muxError_eq (W k N : Nat) (r : Radix) (S E F : Nat) : cmuxBound W k N r S E F = muxError W k N r S E F := by
  rw [cmuxBound, muxError]; ring

/-- **C87.** Encrypt a rotation (it succeeds for every rotation below the degree). Then blind rotation of *every* GLWE ciphertext
succeeds, and the result decrypts to the message rotated to the left by that amount, with the coefficients that wrap around
negated, up to `log2(N)` times the error of a CMUX. -/
theorem C87_blind_rotation (W : Nat) (hW : W ≤ 64) (n k E S F : Nat) (r : Radix) (hl : 0 < r.log) (hc : 0 < r.count) (hlt : r.log * r.count < W)
    (bits : Nat) (hb0 : 0 < bits) (hbits : bits < W) (rot : Nat) (hrot : rot < 2 ^ n) (sk : List (List (BitVec W))) (hsk : KeyFor sk k (2 ^ n)) (hS : KeyBound S sk)
    (masks : Nat → Nat → Nat → List (List (BitVec W))) (hma : ∀ h i j, KeyFor (masks h i j) k (2 ^ n))
    (noise : Nat → Nat → Nat → Option (List Int)) (hno : ∀ h i j, NoiseOk (2 ^ n) E (noise h i j)) :
    ∃ index, shiftGen k (2 ^ n) r bits rot sk masks (fun h i j => (noise h i j).map fun l => l.map (BitVec.ofInt W)) = some index ∧
      ∀ (ct : Glwe (BitVec W)) (m : List (BitVec W)) (fe : Nat → Glwe (BitVec W)), ct.valid k (2 ^ n) → glweDecrypt ct sk = some m →
        (∀ i, FftErr k (2 ^ n) F (fe i)) →
        ∃ out y, blindRotation k (2 ^ n) r fe index ct = some out ∧ out.valid k (2 ^ n) ∧ glweDecrypt out sk = some y ∧
          NearPoly (n * muxError W k (2 ^ n) r S E F) y (m.drop rot ++ (m.take rot).map fun x => -x) := by
  have hN : isPow2 (2 ^ n) = true := isPow2_iff.mpr ⟨n, rfl⟩
  have hpos := Nat.two_pow_pos n
  obtain ⟨index, i1, i2⟩ := shiftRows_spec hW r hl hc hlt bits hb0 hbits rot sk hsk masks hma noise hno n 0
  refine ⟨index, by rw [shiftGen, if_pos hrot, Nat.log2_two_pow]; exact i1, fun ct m fe hct hm hfe => ?_⟩
  obtain ⟨out, err, o1, o2, o3, o4⟩ := blindLoop_spec (F := F) hl hc hlt rot sk hsk (key_small hsk hS) fe hfe n 0 index ct i2 hct (by simpa using hrot)
  obtain ⟨m', m1, m2, m3⟩ := decrypt_phase hN ct sk hct hsk.2
  rw [hm] at m1
  cases m1
  obtain ⟨y, y1, y2, y3⟩ := decrypt_phase hN out sk o2 hsk.2
  refine ⟨out, y, o1, o2, y1, ?_⟩
  apply nearPoly_of_small y2 (by simp; omega)
  have hr := cls_rot (N := 2 ^ n) (m.take rot) (m.drop rot) (by simp; omega)
  rw [List.take_append_drop, List.length_take, show min rot m.length = rot by omega, m3, ← o4, pow_zero, Nat.div_one, Nat.mul_one] at hr
  have := xpow_unit hpos rot hr
  rw [this, y3, ← muxError_eq]
  convert o3 using 1
  ring

/-- **C87, decoding.** If the message coefficients are encodings of `ms` up to `e`, and `e` and the error of the rotation stay below
half an encoding step, the result decodes to `ms` rotated to the left, with the coefficients that wrap around negated modulo
`2^p`. -/
theorem C87_decodes (W : Nat) (hW : W ≤ 64) (n k E S F : Nat) (r : Radix) (hl : 0 < r.log) (hc : 0 < r.count) (hlt : r.log * r.count < W)
    (bits : Nat) (hb0 : 0 < bits) (hbits : bits < W) (rot : Nat) (hrot : rot < 2 ^ n) (sk : List (List (BitVec W))) (hsk : KeyFor sk k (2 ^ n)) (hS : KeyBound S sk)
    (masks : Nat → Nat → Nat → List (List (BitVec W))) (hma : ∀ h i j, KeyFor (masks h i j) k (2 ^ n))
    (noise : Nat → Nat → Nat → Option (List Int)) (hno : ∀ h i j, NoiseOk (2 ^ n) E (noise h i j))
    (p e : Nat) (hp0 : 0 < p) (hp : p < W) (hp32 : p < 32) (hsmall : n * muxError W k (2 ^ n) r S E F + e < 2 ^ (W - p - 1)) :
    ∃ index, shiftGen k (2 ^ n) r bits rot sk masks (fun h i j => (noise h i j).map fun l => l.map (BitVec.ofInt W)) = some index ∧
      ∀ (ct : Glwe (BitVec W)) (m : List (BitVec W)) (ms : List Nat) (fe : Nat → Glwe (BitVec W)), ct.valid k (2 ^ n) → glweDecrypt ct sk = some m →
        List.Forall₂ (fun x v => v < 2 ^ p ∧ Near e x (BitVec.ofNat W (v * 2 ^ (W - p)))) m ms → (∀ i, FftErr k (2 ^ n) F (fe i)) →
        ∃ out y, blindRotation k (2 ^ n) r fe index ct = some out ∧ glweDecrypt out sk = some y ∧
          y.map (fun x => decode x p) = (ms.drop rot ++ (ms.take rot).map fun v => (2 ^ p - v) % 2 ^ p).map fun v => some (BitVec.ofNat W v) := by
  obtain ⟨index, i1, i2⟩ := C87_blind_rotation W hW n k E S F r hl hc hlt bits hb0 hbits rot hrot sk hsk hS masks hma noise hno
  refine ⟨index, i1, fun ct m ms fe hct hm hms hfe => ?_⟩
  obtain ⟨out, y, o1, o2, o3, o4⟩ := i2 ct m fe hct hm hfe
  refine ⟨out, y, o1, o3, ?_⟩
  have hneg : List.Forall₂ (fun x v => v < 2 ^ p ∧ Near e x (BitVec.ofNat W (v * 2 ^ (W - p)))) ((m.take rot).map fun x => -x)
      ((ms.take rot).map fun v => (2 ^ p - v) % 2 ^ p) := by
    have ht := List.forall₂_take rot hms
    rw [List.forall₂_map_left_iff, List.forall₂_map_right_iff]
    refine ht.imp fun x v h => ?_
    obtain ⟨h1, z, h2, h3⟩ := h
    refine ⟨Nat.mod_lt _ (Nat.two_pow_pos p), -z, by rwa [Int.natAbs_neg], ?_⟩
    rw [h3, neg_add, BitVec.ofInt_neg]
    congr 1
    have hw : 2 ^ p * 2 ^ (W - p) = 2 ^ W := by rw [← pow_add, show p + (W - p) = W by omega]
    apply BitVec.eq_of_toNat_eq
    rw [BitVec.toNat_neg, BitVec.toNat_ofNat, BitVec.toNat_ofNat]
    rcases Nat.eq_zero_or_pos v with rfl | hv
    · simp
    · have hlt : v * 2 ^ (W - p) < 2 ^ W := by rw [← hw]; exact Nat.mul_lt_mul_of_pos_right h1 (Nat.two_pow_pos _)
      rw [Nat.mod_eq_of_lt hlt, Nat.mod_eq_of_lt (show 2 ^ p - v < 2 ^ p by omega), Nat.sub_mul, hw]
  have hall := List.rel_append (List.forall₂_drop rot hms) hneg
  have hgoal : ∀ (a b : List (BitVec W)) (c : List Nat), List.Forall₂ (Near (n * muxError W k (2 ^ n) r S E F)) a b →
      List.Forall₂ (fun x v => v < 2 ^ p ∧ Near e x (BitVec.ofNat W (v * 2 ^ (W - p)))) b c → a.map (fun x => decode x p) = c.map fun v => some (BitVec.ofNat W v) := by
    intro a b c h1
    induction h1 generalizing c with
    | nil => intro h2; cases h2; rfl
    | cons h _ ih =>
      intro h2
      cases h2 with
      | cons g1 g2 =>
        rw [List.map_cons, List.map_cons, ih _ g2, near_decode hp0 hp hp32 g1.1 hsmall (Tfhe.Near.trans h g1.2)]
  exact hgoal _ _ _ o4 hall

/-- **C56, GLev ciphertexts.** The CMUX of two GLevs with a selector of a bit (in the sense of `Selects`: it selects between any two
GLWE ciphertexts up to `B`) succeeds and selects between every pair of corresponding GLWE ciphertexts. -/
theorem C56_glev_cmux {W k n F B : Nat} {r : Radix} {sk : List (List (BitVec W))} {bit : Bool} {g : List (List (Glwe (BitVec W)))} (hg : Selects k n r sk F B bit g)
    (fe : Nat → Glwe (BitVec W)) (hfe : ∀ j, FftErr k (2 ^ n) F (fe j)) : ∀ (j : Nat) (d0 d1 : List (Glwe (BitVec W))), d0.length = d1.length →
      (∀ x ∈ d0, x.valid k (2 ^ n)) → (∀ x ∈ d1, x.valid k (2 ^ n)) →
      ∃ out, glevCmux k (2 ^ n) r fe g j d0 d1 = some out ∧
        List.Forall₂ (fun d y => y.valid k (2 ^ n) ∧ ∃ m my, glweDecrypt d sk = some m ∧ glweDecrypt y sk = some my ∧ NearPoly B my m) (if bit then d1 else d0) out
  | j, [], [], _, _, _ => ⟨[], by simp [glevCmux], by cases bit <;> exact .nil⟩
  | _, [], _ :: _, h, _, _ => by simp at h
  | _, _ :: _, [], h, _, _ => by simp at h
  | j, x0 :: d0, x1 :: d1, h, h0, h1 => by
    obtain ⟨out, o1, o2⟩ := C56_glev_cmux hg fe hfe (j + 1) d0 d1 (by simpa using h) (fun x hx => h0 x (by simp [hx])) (fun x hx => h1 x (by simp [hx]))
    obtain ⟨y, m0, m1, my, y1, y2, y3, y4, y5, y6⟩ := hg x0 x1 (fe j) (h0 x0 (by simp)) (h1 x1 (by simp)) (hfe j).1 (hfe j).2
    refine ⟨y :: out, by rw [glevCmux, y1]; simp only [o1], ?_⟩
    cases bit
    · exact .cons ⟨y2, m0, my, y3, y5, y6⟩ o2
    · exact .cons ⟨y2, m1, my, y4, y5, y6⟩ o2

/-- **C87, range.** A rotation of the degree or more is rejected. -/
theorem C87_range (W k N : Nat) (r : Radix) (bits rot : Nat) (h : N ≤ rot) (sk : List (List (BitVec W))) (masks : Nat → Nat → Nat → List (List (BitVec W)))
    (noise : Nat → Nat → Nat → Option (List (BitVec W))) : shiftGen k N r bits rot sk masks noise = none := by
  rw [shiftGen, if_neg (by omega)]

/-- the conditions hold for the parameters of the documentation: degree 32, a 64-bit torus, 4-bit messages -/
example : 5 * muxError 64 1 (2 ^ 5) ⟨4, 3⟩ 1 (2 ^ 44) (2 ^ 40) + 2 ^ 44 < 2 ^ (64 - 4 - 1) ∧ KeyFor [[1#64, 0#64, 0#64, 1#64]] 1 (2 ^ 2) ∧
    KeyBound 1 [[1#64, 0#64, 0#64, 1#64]] ∧ NoiseOk (2 ^ 2) 1000 (some [1, -1000, 0, 2]) := by
  refine ⟨by decide, ⟨rfl, by simp⟩, by simp [KeyBound], ?_⟩
  intro l hl
  obtain rfl := Option.some.inj hl
  exact ⟨rfl, by decide⟩

/-- computed: degree 4, W = 12, rotation by 3 = 1 + 2 of the message 1, 2, 3, 4, under the key `X + X^3` -/
example : ((shiftGen (W := 12) 1 4 ⟨4, 2⟩ 1 3 [[0, 1, 0, 1]] (fun h i j => [[BitVec.ofNat 12 (h + 3 * i), 5, BitVec.ofNat 12 j, 7]]) (fun _ _ _ => none)).bind fun idx =>
    (blindRotation 1 4 ⟨4, 2⟩ (fun _ => glweZero 1 4) idx ⟨[[0, 0, 0, 0]], [0x100, 0x200, 0x300, 0x400]⟩).bind fun c => glweDecrypt c [[0, 1, 0, 1]]).map
      (fun y => y.map fun x => decode x 4) = some [some 4, some 15, some 14, some 13] := by decide +kernel

end Spf.Props
