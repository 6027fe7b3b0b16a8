import Verif.Proof.Pbs
import Verif.Props.Ggsw
/-!
C55, C75–C77: lookup tables and programmable bootstrapping. Torus elements are `BitVec W` (`W = 32` or `64` in the code),
polynomials have `2^n` coefficients, a table of precision `bits` has `2^bits` slots of `2^(n - bits)` coefficients.
-/
namespace Spf.Props
open Spf.Spec Spf.Tfhe

/-- a total function on `bits`-bit messages, as the code's closures -/
def total (f : Nat → Nat) : Nat → Option Nat := fun j => some (f j)

theorem total_ok {bits : Nat} {f : Nat → Nat} (hf : ∀ j < 2 ^ bits, f j < 2 ^ bits) : MapsOk bits [total f] := by
  intro g hg j hj
  simp only [List.mem_singleton] at hg
  subst hg
  exact ⟨f j, rfl, hf j hj⟩

/-- **C55.** Build the table of any function `f` on `bits`-bit messages (in a scratch polynomial of any contents). Multiply
it by `X^(-φ)`, for any rotation amount `φ` that modulo `2N` lies in the slot of a message `m`: `φ = m * slot + d`, with
`d` from minus half a slot (included) to half a slot (excluded). Then the constant coefficient of the result is `f m` in
the top `bits` bits. -/
theorem C55_lookup (W n bits : Nat) (hb0 : bits < 31) (hbn : bits ≤ n) (hbW : bits ≤ W) (hW : W - bits < 64) (f : Nat → Nat)
    (hf : ∀ j < 2 ^ bits, f j < 2 ^ bits) (buf : List (BitVec W)) (hbuf : buf.length = 2 ^ n) (m : Nat) (hm : m < 2 ^ bits) (φ d c : Int)
    (hφ : φ = m * 2 ^ (n - bits) + d + c * (2 * 2 ^ n)) (hd : -((2 ^ (n - bits) / 2 : Nat) : Int) ≤ d)
    (hd' : d < 2 ^ (n - bits) - ((2 ^ (n - bits) / 2 : Nat) : Int)) :
    ∃ L q, generateLut bits [total f] buf = some L ∧ L.length = 2 ^ n ∧ mulByMonomial L (-φ) = some q ∧
      q[0]? = some (BitVec.ofNat W (f m * 2 ^ (W - bits))) := by
  have hNp := Nat.two_pow_pos n
  obtain ⟨L, L0, l1, l2, l3, l4, l5⟩ := generateLut_spec hbn hb0 hbW hW [total f] (total_ok hf) (logV := 0) (by show ceilLog2 1 = some 0; decide) buf hbuf
  obtain ⟨q, q1, q2, q3, q4⟩ := C46_rotation L (-φ) (by intro e; rw [e] at l2; simp at l2; omega)
  rw [l2] at q2 q3 q4
  refine ⟨L, q, l1, l2, q1, ?_⟩
  have hu0 : 0 ≤ ((2 ^ (n - bits) / 2 : Nat) : Int) + d := by omega
  obtain ⟨u, hu⟩ := Int.eq_ofNat_of_zero_le hu0
  have hult : u < 2 ^ (n - bits) := by
    have : (u : Int) < (2 ^ (n - bits) : Nat) := by push_cast; omega
    exact_mod_cast this
  -- `X^(m*slot + u) * q = L0`
  have hQ : xcls (2 ^ n) ^ (m * 2 ^ (n - bits) + u) * cls (2 ^ n) q = cls (2 ^ n) L0 := by
    rcases Int.lt_or_le 0 φ with hp | hp
    · have h1 := q4 (by omega)
      rw [neg_neg] at h1
      rw [← l4, ← h1, ← mul_assoc, ← pow_add]
      congr 1
      apply xcls_pow_congr
      rw [Int.modEq_iff_dvd]
      refine ⟨c, ?_⟩
      push_cast
      rw [Int.toNat_of_nonneg (le_of_lt hp), hφ]
      push_cast at hu
      linear_combination hu
    · have h1 := q3 (by omega)
      rw [h1, ← l4, ← mul_assoc, ← pow_add]
      congr 1
      apply xcls_pow_congr
      rw [Int.modEq_iff_dvd]
      refine ⟨c, ?_⟩
      push_cast
      rw [Int.toNat_of_nonneg (by omega), hφ]
      push_cast at hu
      linear_combination hu
  have hpos : m * 2 ^ (n - bits) + u + 0 < 2 ^ n := by
    calc m * 2 ^ (n - bits) + u + 0 < (m + 1) * 2 ^ (n - bits) := by rw [Nat.add_mul, Nat.one_mul]; omega
      _ ≤ 2 ^ bits * 2 ^ (n - bits) := Nat.mul_le_mul_right _ hm
      _ = 2 ^ n := by rw [← Nat.pow_add]; congr 1; omega
  rw [rot_get _ L0 q l3 q2 hQ 0 hpos, Nat.add_zero, l5 m u hm hult,
    lutEntry_eq hbW hW (f := total f) (x := f m) (by simp [Nat.mod_one]) rfl (hf m hm)]

/-- a concrete case: 2-bit messages, 16 coefficients, slots of 4; rotations 6 to 9 all look up message 2 -/
example : ∀ φ ∈ [6, 7, 8, 9], (((generateLut (W := 8) 2 [total fun x => (x + 3) % 4] (List.replicate 16 0x55#8)).bind fun L =>
    mulByMonomial L (-φ)).bind fun q => q[0]?) = some (BitVec.ofNat 8 (1 * 2 ^ 6)) := by decide +kernel

/-- **C55, without a padding bit.** A phase in the upper half of the torus (message `m + 2^bits`) looks up the negation:
the table is only usable with a padding bit. -/
theorem C55_upper_half (W n bits : Nat) (hb0 : bits < 31) (hbn : bits ≤ n) (hbW : bits ≤ W) (hW : W - bits < 64) (f : Nat → Nat)
    (hf : ∀ j < 2 ^ bits, f j < 2 ^ bits) (buf : List (BitVec W)) (hbuf : buf.length = 2 ^ n) (m : Nat) (hm : m < 2 ^ bits) (φ d c : Int)
    (hφ : φ = (m + 2 ^ bits) * 2 ^ (n - bits) + d + c * (2 * 2 ^ n)) (hd : -((2 ^ (n - bits) / 2 : Nat) : Int) ≤ d)
    (hd' : d < 2 ^ (n - bits) - ((2 ^ (n - bits) / 2 : Nat) : Int)) :
    ∃ L q, generateLut bits [total f] buf = some L ∧ mulByMonomial L (-φ) = some q ∧
      q[0]? = some (-BitVec.ofNat W (f m * 2 ^ (W - bits))) := by
  have hNp := Nat.two_pow_pos n
  have hpw : (2 ^ bits * 2 ^ (n - bits) : Int) = 2 ^ n := by rw [← pow_add]; congr 1; omega
  obtain ⟨L, q, h1, h2, h3, h4⟩ := C55_lookup W n bits hb0 hbn hbW hW f hf buf hbuf m hm (φ - 2 ^ n) d c (by rw [hφ]; linear_combination hpw) hd hd'
  have hne : L ≠ [] := by intro e; rw [e] at h2; simp at h2; omega
  have hcomp := C46_compose L q (-(φ - 2 ^ n)) (-(2 ^ n : Int)) hne h3
  rw [show -(φ - 2 ^ n) + -(2 ^ n : Int) = -φ by ring] at hcomp
  obtain ⟨q', q1, q2, q3, -⟩ := C46_rotation L (-(φ - 2 ^ n)) hne
  rw [h3] at q1
  obtain rfl := Option.some.inj q1
  rw [h2] at q2
  have hneg : mulByMonomial q (-(2 ^ n : Int)) = some (q.map fun x => -x) := by
    have h0 : (-(2 ^ n : Int)).natAbs = 2 ^ n := by rw [Int.natAbs_neg, Int.natAbs_pow]; rfl
    have hlt : (-(2 ^ n : Int)) < 0 := by
      have : (0 : Int) < 2 ^ n := by positivity
      omega
    rw [mulByMonomial, if_pos hlt, h0]
    simp only [mulByNegMonomial]
    rw [q2, if_neg (by omega), Nat.mod_eq_of_lt (by omega), if_neg (by omega), if_pos rfl]
  refine ⟨L, q.map fun x => -x, h1, by rw [← hcomp, hneg], ?_⟩
  rw [List.getElem?_map, h4]; rfl

/-! ### bootstrap keys -/

/-- the shape of a freshly allocated (all-zero) bootstrap key -/
def freshBsk (W n k N count : Nat) : List (List (List (Glwe (BitVec W)))) := List.replicate n (freshGgsw W k N count)

theorem bit_fits {W : Nat} (hW : 1 < W) {N : Nat} (b : Bool) :
    ∀ x ∈ (if b then 1 else 0 : BitVec W) :: List.replicate (N - 1) 0, x.toNat < 2 ^ 1 := by
  intro x hx
  simp only [List.mem_cons] at hx
  rcases hx with rfl | hx
  · cases b
    · simp
    · show (BitVec.ofNat W 1).toNat < _
      rw [BitVec.toNat_ofNat, Nat.mod_eq_of_lt (Nat.one_lt_two_pow (by omega))]; decide
  · rw [List.eq_of_mem_replicate hx]; simp

theorem bskRows_spec {W n k E : Nat} (hW : W ≤ 64) (r : Radix) (hl : 0 < r.log) (hc : 0 < r.count) (hlt : r.log * r.count < W)
    (sk : List (List (BitVec W))) (hsk : KeyFor sk k (2 ^ n)) (masks : Nat → Nat → Nat → List (List (BitVec W)))
    (hma : ∀ h i j, KeyFor (masks h i j) k (2 ^ n)) (noise : Nat → Nat → Nat → Option (List Int))
    (hno : ∀ h i j, NoiseOk (2 ^ n) E (noise h i j)) : ∀ (h : Nat) (s : List Bool),
    ∃ bsk, bskRows (2 ^ n) r sk masks (fun h i j => (noise h i j).map fun l => l.map (BitVec.ofInt W)) h (bitKey W s)
        (freshBsk W s.length k (2 ^ n) r.count) = some bsk ∧
      List.Forall₂ (fun b g => GgswOk k (2 ^ n) r.log r.count E sk (if b then 1 else 0) g) s bsk
  | _, [] => ⟨[], rfl, .nil⟩
  | h, b :: s => by
    have hl1 : 1 < W := by have := Nat.mul_pos hl hc; omega
    have hNp := Nat.two_pow_pos n
    obtain ⟨g, g1, g2⟩ := ggsw_exists hW r hl hc hlt 1 hl1 ((if b then 1 else 0 : BitVec W) :: List.replicate (2 ^ n - 1) 0) (by simp; omega)
      (bit_fits hl1 b) sk hsk (masks h) (hma h) (noise h) (hno h)
    rw [bit_cls hNp b] at g2
    obtain ⟨gs, e1, e2⟩ := bskRows_spec hW r hl hc hlt sk hsk masks hma noise hno (h + 1) s
    refine ⟨g :: gs, ?_, .cons g2 e2⟩
    have : freshBsk W (b :: s).length k (2 ^ n) r.count = freshGgsw W k (2 ^ n) r.count :: freshBsk W s.length k (2 ^ n) r.count := by
      simp [freshBsk, List.replicate_succ]
    rw [bitKey, List.map_cons, ← bitKey, this, bskRows, ggswEncryptScalar, if_neg (by omega), g1]
    simp only [e1]

/-! ### bootstrapping -/

/-- The error of one CMUX (C56), for keys with coefficients bounded by 1: rounding of the decomposition, noise of the
bootstrap key (bounded by `E`), Fourier rounding (bounded by `F`). -/
def stepError (W k N : Nat) (r : Radix) (E F : Nat) : Nat :=
  2 ^ (W - r.log * r.count - 1) * (1 + k * N) + (k + 1) * (r.count * (N * (2 ^ (r.log - 1) * E))) + F * (1 + k * N)

theorem stepError_eq (W k N : Nat) (r : Radix) (E F : Nat) : cmuxBound W k N r 1 E F = stepError W k N r E F := by
  rw [cmuxBound, stepError]; ring

/-- **C76.** Generalized bootstrap with several functions. Take binary keys, generate a bootstrap key (any masks, noise of
absolute value at most `E`), build the table of any functions `fs` on `bits`-bit messages, with `2^v` the number of
functions rounded up to a power of two. If two blocks of `2^v` coefficients fit in a slot (`v + bits + 1 ≤ n`), or there
is one function (`v = 0`), then bootstrapping *any* LWE ciphertext whose phase, shifted left by `chi` bits, is `m` with
one padding bit up to `e` gives a GLWE ciphertext whose coefficient `h`, extracted, decrypts to `fs[h] m` in the top
`bits` bits, up to `stepError` per key element — provided the input error and the rounding of the modulus switch (half a
unit for the body and for every *one* of the key) stay below half a slot. Missing: tables where one block of `2^v` coefficients fills a slot, see `C76_full_slot_violated`. -/
theorem C76_generalized_partial (W : Nat) (hW : W ≤ 64) (n k E F N' bits v chi e : Nat) (r : Radix) (hl : 0 < r.log) (hc : 0 < r.count)
    (hlt : r.log * r.count < W) (hk : 0 < k) (hb : 0 < bits) (hb31 : bits < 31) (hN' : 0 < N') (hnW : n + 1 < W) (hchi : chi < W)
    (hsize : (v = 0 ∧ bits ≤ n) ∨ v + bits + 1 ≤ n)
    (sk : List (List (BitVec W))) (hsk : KeyFor sk k (2 ^ n)) (hbin : KeyBound 1 sk) (s : List Bool) (hs : s.length = N')
    (hsmall : e + (s.count true + 1) * 2 ^ (W - (n + 1 - v) - 1) < 2 ^ (W - bits - 2))
    (masks : Nat → Nat → Nat → List (List (BitVec W))) (hma : ∀ h i j, KeyFor (masks h i j) k (2 ^ n))
    (noise : Nat → Nat → Nat → Option (List Int)) (hno : ∀ h i j, NoiseOk (2 ^ n) E (noise h i j))
    (fs : List (Nat → Nat)) (hfs : ∀ f ∈ fs, ∀ j < 2 ^ bits, f j < 2 ^ bits) (hv : ceilLog2 fs.length = some v)
    (buf : List (BitVec W)) (hbuf : buf.length = 2 ^ n) :
    ∃ bsk lut, bskGen N' k (2 ^ n) r (freshBsk W N' k (2 ^ n) r.count) (bitKey W s) sk masks
        (fun h i j => (noise h i j).map fun l => l.map (BitVec.ofInt W)) = some bsk ∧
      lutNew k (2 ^ n) bits (fs.map total) buf = some lut ∧
      ∀ (ct : Lwe (BitVec W)) (x : BitVec W) (m : Nat) (fe : Nat → Glwe (BitVec W)), ct.a.length = N' → m < 2 ^ bits →
        (∀ i, FftErr k (2 ^ n) F (fe i)) → lweDecrypt N' (bitKey W s) ct = some x →
        Near e (x * BitVec.ofNat W (2 ^ chi)) (BitVec.ofNat W (m * 2 ^ (W - bits - 1))) →
        ∃ out, generalizedPbs N' k (2 ^ n) r chi v fe ct lut bsk = some out ∧ out.valid k (2 ^ n) ∧
          ∀ (h : Nat) (f : Nat → Nat), fs[h]? = some f → ∃ l y, sampleExtract (2 ^ n) h out = some l ∧ lweDecrypt (k * 2 ^ n) (toLweKey sk) l = some y ∧
            Near (N' * stepError W k (2 ^ n) r E F) y (BitVec.ofNat W (f m * 2 ^ (W - bits))) := by
  have hval : r.valid W = true := by
    have := Nat.mul_comm r.log r.count
    simp only [Radix.valid, Bool.and_eq_true, decide_eq_true_eq]; omega
  obtain ⟨bsk, k1, k2⟩ := bskRows_spec (E := E) hW r hl hc hlt sk hsk masks hma noise hno 0 s
  rw [hs] at k1
  have hmaps : MapsOk bits (fs.map total) := by
    intro g hg j hj
    obtain ⟨f, hf, rfl⟩ := List.mem_map.1 hg
    exact ⟨f j, rfl, hfs f hf j hj⟩
  have hfs0 : 0 < fs.length := by
    rcases Nat.eq_zero_or_pos fs.length with h0 | h0
    · rw [h0] at hv; simp [ceilLog2] at hv
    · exact h0
  obtain ⟨L, L0, l1, l2, -⟩ := generateLut_spec (W := W) (n := n) (show bits ≤ n by omega) hb31 (show bits ≤ W by omega) (by omega) (fs.map total)
    hmaps (by rw [List.length_map]; exact hv) buf hbuf
  have hlut0 : ∃ lut, lutNew k (2 ^ n) bits (fs.map total) buf = some lut := by
    rw [lutNew, l1]
    simp only [glweTrivial]
    rw [if_pos (by simp [glweZero, l2])]
    exact ⟨_, rfl⟩
  obtain ⟨lut, hlut⟩ := hlut0
  refine ⟨bsk, lut, ?_, hlut, ?_⟩
  · rw [bskGen, if_pos ⟨by omega, isPow2_iff.mpr ⟨n, rfl⟩, by omega, hval, by simp [freshBsk], hsk.1, by simp [bitKey, hs]⟩]
    exact k1
  · intro ct x m fe hct hm hfe hdec hnear
    rw [lweDecrypt, if_pos ⟨by omega, hct⟩] at hdec
    obtain rfl := Option.some.inj hdec
    have key : ∀ (h : Nat) (f : Nat → Nat), fs[h]? = some f → ∃ out y yh, generalizedPbs N' k (2 ^ n) r chi v fe ct lut bsk = some out ∧ out.valid k (2 ^ n) ∧
        glweDecrypt out sk = some y ∧ y[h]? = some yh ∧ Near (N' * cmuxBound W k (2 ^ n) r 1 E F) yh (BitVec.ofNat W (f m * 2 ^ (W - bits))) := by
      intro h f hf
      obtain ⟨lut', out, y, yh, p1, p2, p3, p4, p5, p6⟩ := generalizedPbs_spec (W := W) (n := n) (k := k) (E := E) (S := 1) (F := F) (N' := N')
        (bits := bits) (v := v) (chi := chi) (e := e) (m := m) (h := h) (x := f m) hl hc hlt hk (by omega) hN' hb31 hsize hnW hchi sk hsk
        (key_small hsk hbin) s hs bsk k2 fe hfe (fs.map total) hmaps (by rw [List.length_map]; exact hv) buf hbuf ct hct hm (f := total f)
        (by rw [List.getElem?_map, hf]; rfl) rfl hnear hsmall
      rw [hlut] at p1
      obtain rfl := Option.some.inj p1
      exact ⟨out, y, yh, p2, p3, p4, p5, p6⟩
    obtain ⟨out, y, yh, p2, p3, p4, p5, p6⟩ := key 0 fs[0] (List.getElem?_eq_getElem hfs0)
    refine ⟨out, p2, p3, fun h f hf => ?_⟩
    obtain ⟨out', y', yh', r2, r3, r4, r5, r6⟩ := key h f hf
    rw [p2] at r2
    obtain rfl := Option.some.inj r2
    have hylen : y'.length = 2 ^ n := by
      obtain ⟨z, z1, z2, -⟩ := decrypt_phase (isPow2_iff.mpr ⟨n, rfl⟩) out sk p3 hsk.2
      rw [r4] at z1
      obtain rfl := Option.some.inj z1
      exact z2
    have hh : h < 2 ^ n := by
      have := (List.getElem?_eq_some_iff.1 r5).1
      omega
    obtain ⟨l, mm, s1, s2, s3, s4, -⟩ := C49_sample_extract n k h hk hh out sk p3 hsk
    rw [r4] at s2
    obtain rfl := Option.some.inj s2
    refine ⟨l, yh', s1, by rw [s4, r5], ?_⟩
    rw [← stepError_eq]; exact r6

/-- concrete parameters (those of the documentation: 512-element key, 2048 coefficients, 64-bit torus) meet the conditions
of `C76_generalized_partial`, for one function of one bit and for two functions of one bit with a smaller key -/
example : 2 ^ 50 + (512 + 1) * 2 ^ (64 - (11 + 1 - 0) - 1) < 2 ^ (64 - 1 - 2) ∧ ((0 : Nat) = 0 ∧ 1 ≤ 11) ∧ 11 + 1 < 64 ∧
    ceilLog2 1 = some 0 ∧ ceilLog2 2 = some 1 ∧ ceilLog2 3 = some 2 ∧ 2 ^ 50 + (200 + 1) * 2 ^ (64 - (11 + 1 - 1) - 1) < 2 ^ (64 - 1 - 2) ∧
    1 + 1 + 1 ≤ 11 ∧ KeyBound 1 [[1#64, 0#64]] := by
  refine ⟨by decide, by decide, by decide, by decide, by decide, by decide, by decide, by decide, by simp [KeyBound]⟩

/-- **C76, violation.** When one block of `2^v` coefficients fills a slot (`2^v = slot`, `v > 0`), the table is accepted,
and a noiseless input of message 0 selects the wrong function: coefficient 0 of the table for `fs = [f, g, …]` is the value
of function number `2^(v-1)`, not of `f`. Here with two functions. -/
theorem C76_full_slot_violated (W bits : Nat) (hb : 0 < bits) (hb31 : bits < 31) (hbW : bits < W) (hW : W ≤ 64) (f g : Nat → Nat)
    (hf : ∀ j < 2 ^ bits, f j < 2 ^ bits) (hg : ∀ j < 2 ^ bits, g j < 2 ^ bits) (buf : List (BitVec W)) (hbuf : buf.length = 2 ^ (bits + 1)) :
    ∃ L, generateLut bits [total f, total g] buf = some L ∧ mulByMonomial L 0 = some L ∧
      L[0]? = some (BitVec.ofNat W (g 0 * 2 ^ (W - bits))) := by
  have hm : MapsOk bits [total f, total g] := by
    intro m hm j hj
    simp only [List.mem_cons, List.not_mem_nil, or_false] at hm
    rcases hm with rfl | rfl
    · exact ⟨_, rfl, hf j hj⟩
    · exact ⟨_, rfl, hg j hj⟩
  have hpos := Nat.two_pow_pos (bits + 1)
  obtain ⟨L, L0, l1, l2, l3, l4, l5⟩ := generateLut_spec (W := W) (n := bits + 1) (logV := 1) (by omega) hb31 (by omega) (by omega) [total f, total g] hm
    (by show ceilLog2 2 = some 1; decide) buf hbuf
  rw [show bits + 1 - bits = 1 by omega] at l4 l5
  have hh : 0 + 1 + 0 < 2 ^ (bits + 1) := by
    have := Nat.pow_le_pow_right (n := 2) (by decide) (show 1 ≤ bits + 1 by omega)
    omega
  have h0 := rot_get 1 L0 L l3 l2 l4 0 (by omega)
  refine ⟨L, l1, ?_, ?_⟩
  · simp [mulByMonomial, mulByPosMonomial, l2]
  · have h1 := l5 0 1 (Nat.two_pow_pos _) (by decide)
    rw [Nat.zero_mul, Nat.zero_add] at h1
    rw [h0, Nat.add_zero, h1]
    exact lutEntry_eq (by omega) (by omega) (f := total g) (by simp) rfl (hg 0 (Nat.two_pow_pos _))

/-- concrete: functions constant 0 and constant 1 on one bit, 4 coefficients; the first coefficient is 1, not 0 -/
example : ((generateLut (W := 8) 1 [total fun _ => 0, total fun _ => 1] (List.replicate 4 0)).bind fun L => L[0]?) = some 0x80#8 := by decide +kernel

/-- a torus element close to the encoding of `v` decodes to `v` -/
theorem near_decode {W p B v : Nat} (hp0 : 0 < p) (hp : p < W) (hp32 : p < 32) (hv : v < 2 ^ p) (hB : B < 2 ^ (W - p - 1)) {y : BitVec W}
    (h : Near B y (BitVec.ofNat W (v * 2 ^ (W - p)))) : decode y p = some (BitVec.ofNat W v) := by
  have he : BitVec.ofNat W (v * 2 ^ (W - p)) = wrapShl (BitVec.ofNat W v) (W - p) := by
    rw [wrapShl, Nat.mod_eq_of_lt (by omega)]
    apply BitVec.eq_of_toNat_eq
    rw [BitVec.toNat_shiftLeft, BitVec.toNat_ofNat, BitVec.toNat_ofNat, Nat.shiftLeft_eq, Nat.mod_mul_mod]
  have := C56_near_decodes p B hp0 hp hp32 hB [v] (by simpa using hv) [y] (by rw [List.map_singleton, ← he]; exact .cons h .nil)
  simp only [List.mapM_cons, List.mapM_nil, List.map_cons, List.map_nil] at this
  cases hd : decode y p with
  | none => rw [hd] at this; simp at this
  | some z => rw [hd] at this; simpa using this

/-- **C75.** Univariate bootstrap. Binary keys, any masks and bounded noise, any function `f` on `bits`-bit messages:
bootstrapping any ciphertext of `m` (with one padding bit, error at most `e`) decrypts under the extracted key to `f m` in
the top `bits` bits up to `stepError` per key element, and decodes to `f m` if that error is below half a step. -/
theorem C75_univariate (W : Nat) (hW : W ≤ 64) (n k E F N' bits e : Nat) (r : Radix) (hl : 0 < r.log) (hc : 0 < r.count)
    (hlt : r.log * r.count < W) (hk : 0 < k) (hb : 0 < bits) (hb31 : bits < 31) (hN' : 0 < N') (hnW : n + 1 < W) (hsize : bits ≤ n)
    (sk : List (List (BitVec W))) (hsk : KeyFor sk k (2 ^ n)) (hbin : KeyBound 1 sk) (s : List Bool) (hs : s.length = N')
    (hsmall : e + (s.count true + 1) * 2 ^ (W - (n + 1) - 1) < 2 ^ (W - bits - 2))
    (masks : Nat → Nat → Nat → List (List (BitVec W))) (hma : ∀ h i j, KeyFor (masks h i j) k (2 ^ n))
    (noise : Nat → Nat → Nat → Option (List Int)) (hno : ∀ h i j, NoiseOk (2 ^ n) E (noise h i j))
    (f : Nat → Nat) (hf : ∀ j < 2 ^ bits, f j < 2 ^ bits) (buf : List (BitVec W)) (hbuf : buf.length = 2 ^ n) :
    ∃ bsk lut, bskGen N' k (2 ^ n) r (freshBsk W N' k (2 ^ n) r.count) (bitKey W s) sk masks
        (fun h i j => (noise h i j).map fun l => l.map (BitVec.ofInt W)) = some bsk ∧
      lutNew k (2 ^ n) bits [total f] buf = some lut ∧
      ∀ (ct : Lwe (BitVec W)) (x : BitVec W) (m : Nat) (fe : Nat → Glwe (BitVec W)), ct.a.length = N' → m < 2 ^ bits →
        (∀ i, FftErr k (2 ^ n) F (fe i)) → lweDecrypt N' (bitKey W s) ct = some x → Near e x (BitVec.ofNat W (m * 2 ^ (W - bits - 1))) →
        ∃ out y, pbsUnivariate N' k (2 ^ n) r fe ct lut bsk = some out ∧ lweDecrypt (k * 2 ^ n) (toLweKey sk) out = some y ∧
          Near (N' * stepError W k (2 ^ n) r E F) y (BitVec.ofNat W (f m * 2 ^ (W - bits))) ∧
          (N' * stepError W k (2 ^ n) r E F < 2 ^ (W - bits - 1) → decode y bits = some (BitVec.ofNat W (f m))) := by
  obtain ⟨bsk, lut, h1, h2, h3⟩ := C76_generalized_partial W hW n k E F N' bits 0 0 e r hl hc hlt hk hb hb31 hN' hnW (by omega)
    (Or.inl ⟨rfl, hsize⟩) sk hsk hbin s hs (by simpa using hsmall) masks hma noise hno [f] (by simpa using hf) (by show ceilLog2 1 = some 0; decide) buf hbuf
  refine ⟨bsk, lut, h1, by simpa using h2, fun ct x m fe hct hm hfe hdec hnear => ?_⟩
  obtain ⟨out, o1, o2, o3⟩ := h3 ct x m fe hct hm hfe hdec (by
    rw [pow_zero, show x * BitVec.ofNat W 1 = x from mul_one x]; exact hnear)
  obtain ⟨l, y, l1, l2, l3⟩ := o3 0 f rfl
  refine ⟨l, y, by rw [pbsUnivariate, o1]; exact l1, l2, l3, fun hB => ?_⟩
  exact near_decode hb (by omega) (by omega) (hf m hm) hB l3

/-- concrete parameters meeting every numeric hypothesis, including the final error bound: 630-element key, 2048
coefficients, one key polynomial, 2 digits of 16 bits, bootstrap key noise up to `2^14`, Fourier error up to `2^35` -/
example : 2 ^ 50 + (630 + 1) * 2 ^ (64 - (11 + 1) - 1) < 2 ^ (64 - 1 - 2) ∧ 630 * stepError 64 1 (2 ^ 11) ⟨16, 2⟩ (2 ^ 14) (2 ^ 35) < 2 ^ (64 - 1 - 1) := by
  decide

/-- a complete run on a tiny instance: 1-element key, `N = 2`, 8-bit torus, the negation of one bit; message 1 (phase
`1 * 2^6`) bootstraps to 0, message 0 to 1 -/
example : (([0, 1] : List Nat).map fun m => (bskGen (W := 8) 1 1 2 ⟨2, 3⟩ (freshBsk 8 1 1 2 3) [1] [[1, 0]] (fun _ i j => [[BitVec.ofNat 8 (9 * i), BitVec.ofNat 8 (7 * j)]])
    (fun _ _ _ => none)).bind fun bsk => (lutNew 1 2 1 [total fun x => 1 - x] [0x11#8, 0x22#8]).bind fun lut =>
      (pbsUnivariate 1 1 2 ⟨2, 3⟩ (fun _ => glweZero 1 2) ⟨[0x40#8], 0x40#8 + BitVec.ofNat 8 (m * 64)⟩ lut bsk).bind fun out =>
        (lweDecrypt 2 [1, 0] out).bind fun y => decode y 1) = [some 1, some 0] := by decide +kernel

/-! ### bivariate bootstrap -/

theorem bivariate_total {bits : Nat} (hb : bits < 31) (f : Nat → Nat → Nat) (hf : ∀ a < 2 ^ bits, ∀ b < 2 ^ bits, f a b < 2 ^ bits) :
    bivariateFn bits (fun a b => some (f a b)) = total fun j => f (j / 2 ^ bits % 2 ^ bits) (j % 2 ^ bits) := by
  funext j
  have h2 := Nat.two_pow_pos bits
  rw [bivariateFn, if_pos (by omega)]
  simp only [total]
  rw [if_pos (hf _ (Nat.mod_lt _ h2) _ (Nat.mod_lt _ h2))]

theorem ofNat_pow_mul {W : Nat} (a b c : Nat) : BitVec.ofNat W (a * c) * BitVec.ofNat W (2 ^ b) = BitVec.ofNat W (2 ^ b * a * c) := by
  rw [← BitVec.ofNat_mul]; congr 1; ring

theorem Near.mulPow {W B : Nat} {x y : BitVec W} (b : Nat) (h : Near B x y) : Near (2 ^ b * B) (x * BitVec.ofNat W (2 ^ b)) (y * BitVec.ofNat W (2 ^ b)) := by
  obtain ⟨e, he, rfl⟩ := h
  refine ⟨e * 2 ^ b, ?_, ?_⟩
  · rw [Int.natAbs_mul, Int.natAbs_pow, Nat.mul_comm]
    exact Nat.mul_le_mul_left _ he
  · rw [BitVec.ofInt_mul, add_mul]
    congr 2


theorem Near.addN {W A B : Nat} {x y u v : BitVec W} (h : Near A x y) (h' : Near B u v) : Near (A + B) (x + u) (y + v) := by
  obtain ⟨e, he, rfl⟩ := h
  obtain ⟨f, hf, rfl⟩ := h'
  exact ⟨e + f, by omega, by rw [BitVec.ofInt_add]; ring⟩

/-- **C77.** Bivariate bootstrap. With `carry ≥ bits` and a padding bit on top of the `bits + carry` bits of each input,
any function `f` of two `bits`-bit messages: bootstrapping ciphertexts of `a` and `b` (errors at most `el`, `er`)
decrypts to `f a b` in the top `bits + carry` bits up to `stepError` per key element, and decodes to `f a b` if that error
is below half a step. -/
theorem C77_bivariate (W : Nat) (hW : W ≤ 64) (n k E F N' bits carry el er : Nat) (r : Radix) (hl : 0 < r.log) (hc : 0 < r.count)
    (hlt : r.log * r.count < W) (hk : 0 < k) (hb : 0 < bits) (hbc : bits ≤ carry) (hb31 : bits + carry < 31) (hN' : 0 < N') (hnW : n + 1 < W)
    (hsize : bits + carry ≤ n)
    (sk : List (List (BitVec W))) (hsk : KeyFor sk k (2 ^ n)) (hbin : KeyBound 1 sk) (s : List Bool) (hs : s.length = N')
    (hsmall : 2 ^ bits * el + er + (s.count true + 1) * 2 ^ (W - (n + 1) - 1) < 2 ^ (W - (bits + carry) - 2))
    (masks : Nat → Nat → Nat → List (List (BitVec W))) (hma : ∀ h i j, KeyFor (masks h i j) k (2 ^ n))
    (noise : Nat → Nat → Nat → Option (List Int)) (hno : ∀ h i j, NoiseOk (2 ^ n) E (noise h i j))
    (f : Nat → Nat → Nat) (hf : ∀ a < 2 ^ bits, ∀ b < 2 ^ bits, f a b < 2 ^ bits) (buf : List (BitVec W)) (hbuf : buf.length = 2 ^ n) :
    ∃ bsk lut, bskGen N' k (2 ^ n) r (freshBsk W N' k (2 ^ n) r.count) (bitKey W s) sk masks
        (fun h i j => (noise h i j).map fun l => l.map (BitVec.ofInt W)) = some bsk ∧
      lutNew2 k (2 ^ n) bits carry (fun a b => some (f a b)) buf = some lut ∧
      ∀ (cl cr : Lwe (BitVec W)) (xl xr : BitVec W) (a b : Nat) (fe : Nat → Glwe (BitVec W)), cl.a.length = N' → cr.a.length = N' →
        a < 2 ^ bits → b < 2 ^ bits → (∀ i, FftErr k (2 ^ n) F (fe i)) →
        lweDecrypt N' (bitKey W s) cl = some xl → Near el xl (BitVec.ofNat W (a * 2 ^ (W - (bits + carry) - 1))) →
        lweDecrypt N' (bitKey W s) cr = some xr → Near er xr (BitVec.ofNat W (b * 2 ^ (W - (bits + carry) - 1))) →
        ∃ out y, pbsBivariate N' k (2 ^ n) r bits fe cl cr lut bsk = some out ∧ lweDecrypt (k * 2 ^ n) (toLweKey sk) out = some y ∧
          Near (N' * stepError W k (2 ^ n) r E F) y (BitVec.ofNat W (f a b * 2 ^ (W - (bits + carry)))) ∧
          (N' * stepError W k (2 ^ n) r E F < 2 ^ (W - (bits + carry) - 1) → decode y (bits + carry) = some (BitVec.ofNat W (f a b))) := by
  have hp := Nat.two_pow_pos bits
  have hple : 2 ^ bits ≤ 2 ^ (bits + carry) := Nat.pow_le_pow_right (by decide) (by omega)
  obtain ⟨bsk, lut, h1, h2, h3⟩ := C75_univariate W hW n k E F N' (bits + carry) (2 ^ bits * el + er) r hl hc hlt hk (by omega) hb31 hN' hnW hsize
    sk hsk hbin s hs hsmall masks hma noise hno (fun j => f (j / 2 ^ bits % 2 ^ bits) (j % 2 ^ bits))
    (fun j _ => lt_of_lt_of_le (hf _ (Nat.mod_lt _ hp) _ (Nat.mod_lt _ hp)) hple) buf hbuf
  refine ⟨bsk, lut, h1, by rw [lutNew2, if_pos hbc, bivariate_total (by omega) f hf]; exact h2, ?_⟩
  intro cl cr xl xr a b fe hcl hcr ha hb' hfe hdl hnl hdr hnr
  -- packing
  have hz : lweDecrypt N' (bitKey W s) (lweZero N') = some 0 := by
    rw [lweDecrypt, if_pos ⟨by omega, by simp [lweZero]⟩]
    have h0 : (List.replicate N' (0 : BitVec W)) = (List.replicate N' (0 : BitVec W)).map fun _ => 0 := by simp
    simp only [lweZero]
    rw [h0, dotAcc_zero, sub_zero]
  obtain ⟨mz, ml, e1, e2, -, -, e3, -⟩ := C52_lwe N' (by omega) (lweZero N') cl (BitVec.ofNat W (2 ^ bits)) (bitKey W s) (by simp [lweZero]) hcl
  rw [hz] at e1
  rw [hdl] at e2
  obtain rfl := Option.some.inj e1
  obtain rfl := Option.some.inj e2
  cases hx : lweScalarMad (lweZero N') (BitVec.ofNat W (2 ^ bits)) cl with
  | none => rw [hx] at e3; simp at e3
  | some p =>
    rw [hx] at e3
    simp only [Option.bind_some] at e3
    have hpl : p.a.length = N' := by
      rw [lweDecrypt] at e3
      by_contra hne
      rw [if_neg (by tauto)] at e3
      simp at e3
    obtain ⟨mp, mr, g1, g2, g3, -⟩ := C52_lwe N' (by omega) p cr 0 (bitKey W s) hpl hcr
    rw [e3] at g1
    rw [hdr] at g2
    obtain rfl := Option.some.inj g1
    obtain rfl := Option.some.inj g2
    cases hy : lweAdd p cr with
    | none => rw [hy] at g3; simp at g3
    | some q =>
      rw [hy] at g3
      simp only [Option.bind_some] at g3
      have hql : q.a.length = N' := by
        rw [lweDecrypt] at g3
        by_contra hne
        rw [if_neg (by tauto)] at g3
        simp at g3
      have hm : 2 ^ bits * a + b < 2 ^ (bits + carry) := by
        calc 2 ^ bits * a + b < 2 ^ bits * (a + 1) := by rw [Nat.mul_add, Nat.mul_one]; omega
          _ ≤ 2 ^ bits * 2 ^ carry := Nat.mul_le_mul_left _ (le_trans ha (Nat.pow_le_pow_right (by decide) hbc))
          _ = _ := by rw [← Nat.pow_add]
      have hnear : Near (2 ^ bits * el + er) (0 + xl * BitVec.ofNat W (2 ^ bits) + xr) (BitVec.ofNat W ((2 ^ bits * a + b) * 2 ^ (W - (bits + carry) - 1))) := by
        have := Near.addN (Near.mulPow bits hnl) hnr
        rw [ofNat_pow_mul, ← BitVec.ofNat_add, ← Nat.add_mul] at this
        rw [zero_add]; exact this
      obtain ⟨out, y, o1, o2, o3, o4⟩ := h3 q _ (2 ^ bits * a + b) fe hql hm hfe g3 hnear
      have hdm : (2 ^ bits * a + b) / 2 ^ bits % 2 ^ bits = a := by
        rw [Nat.mul_add_div hp, Nat.div_eq_of_lt hb', Nat.add_zero, Nat.mod_eq_of_lt ha]
      have hmm : (2 ^ bits * a + b) % 2 ^ bits = b := by rw [Nat.mul_add_mod, Nat.mod_eq_of_lt hb']
      rw [hdm, hmm] at o3 o4
      exact ⟨out, y, by rw [pbsBivariate, if_pos (by omega), hx]; simp only [hy]; exact o1, o2, o3, o4⟩

/-- concrete parameters: one message bit, one carry bit, 500-element key, 4096 coefficients -/
example : 2 ^ 1 * 2 ^ 50 + 2 ^ 50 + (500 + 1) * 2 ^ (64 - (12 + 1) - 1) < 2 ^ (64 - (1 + 1) - 2) ∧
    500 * stepError 64 1 (2 ^ 12) ⟨16, 2⟩ (2 ^ 14) (2 ^ 35) < 2 ^ (64 - (1 + 1) - 1) := by decide

/-- **C77, decoding with carry.** `decrypt_lwe_with_carry` then returns `f a b`: for any value `v < 2^bits` in the top
`bits + carry` bits with an error below half a step. -/
theorem C77_decode_carry (bits carry B v : Nat) (h0 : 0 < bits) (h32 : bits + carry < 32) (hv : v < 2 ^ bits)
    (hB : B < 2 ^ (64 - (bits + carry) - 1)) (y : BitVec 64) (h : Near B y (BitVec.ofNat 64 (v * 2 ^ (64 - (bits + carry))))) :
    decodeCarry y bits carry = some (BitVec.ofNat 64 v) := by
  have hle : 2 ^ bits ≤ 2 ^ (bits + carry) := Nat.pow_le_pow_right (by decide) (by omega)
  have hd := near_decode (p := bits + carry) (by omega) (by omega) h32 (lt_of_lt_of_le hv hle) hB h
  simp only [decode, if_pos (show bits + carry < 64 by omega), mask32, if_pos h32] at hd
  rw [decodeCarry, if_pos (by omega)]
  rw [show 64 - bits - carry = 64 - (bits + carry) by omega]
  cases ha : addC (wrapShr y (64 - (bits + carry))) (wrapShr y (64 - (bits + carry) - 1) &&& 1#64) with
  | none => rw [ha] at hd; simp at hd
  | some z =>
    rw [ha] at hd
    simp only [Option.some.injEq] at hd ⊢
    have hn := congrArg BitVec.toNat hd
    have h64 : 2 ^ (bits + carry) < 2 ^ 64 := Nat.pow_lt_pow_right (by decide) (by omega)
    have hp1 := Nat.two_pow_pos bits
    have hp2 := Nat.two_pow_pos (bits + carry)
    rw [BitVec.toNat_and, BitVec.toNat_ofNat, BitVec.toNat_ofNat, Nat.mod_eq_of_lt (show 2 ^ (bits + carry) - 1 < 2 ^ 64 by omega),
      Nat.and_two_pow_sub_one_eq_mod, Nat.mod_eq_of_lt (show v < 2 ^ 64 by omega)] at hn
    have hmask : BitVec.ofNat 64 (2 ^ bits) - 1#64 = BitVec.ofNat 64 (2 ^ bits - 1) := by
      have : BitVec.ofNat 64 (2 ^ bits) = BitVec.ofNat 64 (2 ^ bits - 1) + 1#64 := by
        rw [← BitVec.ofNat_add]; congr 1; omega
      rw [this]; ring
    rw [hmask]
    apply BitVec.eq_of_toNat_eq
    rw [BitVec.toNat_and, BitVec.toNat_ofNat, BitVec.toNat_ofNat, Nat.mod_eq_of_lt (show 2 ^ bits - 1 < 2 ^ 64 by omega),
      Nat.and_two_pow_sub_one_eq_mod, Nat.mod_eq_of_lt (show v < 2 ^ 64 by omega)]
    rw [← Nat.mod_mod_of_dvd z.toNat (Nat.pow_dvd_pow 2 (show bits ≤ bits + carry by omega)), hn, Nat.mod_eq_of_lt hv]

/-- concrete: value 1 with one carry bit and some error -/
example : decodeCarry (0x4000000000000000#64 + 0x0123456789abcdef#64) 1 1 = some 1#64 := by decide

/-- **C77, violation of the documented use.** The example in the documentation of `programmable_bootstrap_bivariate`
encrypts its inputs on `bits + carry` bits, without the padding bit. With one bit each and no noise at all, inputs 1 and 0
then have the phase `(2*1 + 0) * 2^(W-2)`, that is, a rotation by `N`, and the table of XOR gives 0 instead of 1, for
every table size. (The example only runs inputs 0 and 1, which come out right.) -/
theorem C77_documented_use_violated (W n : Nat) (hn : 2 ≤ n) (hW2 : 2 < W) (hW : W ≤ 64) (buf : List (BitVec W)) (hbuf : buf.length = 2 ^ n) :
    ∃ L q, generateLut 2 [bivariateFn 1 fun a b => some ((a + b) % 2)] buf = some L ∧
      mulByMonomial L (-((2 * 1 + 0) * 2 ^ (n + 1) / 4 : Nat)) = some q ∧ q[0]? = some 0 ∧ (1 + 0) % 2 = 1 := by
  have hb : bivariateFn 1 (fun a b => some ((a + b) % 2)) = total fun j => (j / 2 ^ 1 % 2 ^ 1 + j % 2 ^ 1) % 2 :=
    bivariate_total (by decide) (fun a b => (a + b) % 2) fun a _ b _ => Nat.mod_lt _ (by decide)
  have hsl : 2 ^ 2 * 2 ^ (n - 2) = 2 ^ n := by rw [← Nat.pow_add]; congr 1; omega
  have hslz : (2 ^ 2 * 2 ^ (n - 2) : Int) = 2 ^ n := by rw [← pow_add]; congr 1; omega
  have hφ : (2 * 1 + 0) * 2 ^ (n + 1) / 4 = 2 ^ n := by rw [pow_succ]; omega
  have hpos : (0 : Int) < 2 ^ (n - 2) := by positivity
  obtain ⟨L, q, h1, h2, h3⟩ := C55_upper_half W n 2 (by decide) hn (by omega) (by omega) (fun j => (j / 2 ^ 1 % 2 ^ 1 + j % 2 ^ 1) % 2)
    (fun j _ => lt_of_lt_of_le (Nat.mod_lt _ (by decide)) (by decide)) buf hbuf 0 (by decide) (((2 * 1 + 0) * 2 ^ (n + 1) / 4 : Nat) : Int) 0 0
    (by rw [hφ]; push_cast; linear_combination -hslz) (by omega) (by
      have : (((2 ^ (n - 2) / 2 : Nat)) : Int) < 2 ^ (n - 2) := by
        have h := Nat.two_pow_pos (n - 2)
        have : 2 ^ (n - 2) / 2 < 2 ^ (n - 2) := Nat.div_lt_self h (by decide)
        exact_mod_cast this
      omega)
  exact ⟨L, q, by rw [hb]; exact h1, h2, by rw [h3]; simp, rfl⟩

end Spf.Props
