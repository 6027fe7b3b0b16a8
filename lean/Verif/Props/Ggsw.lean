import Verif.Proof.Ggsw
/-!
C56: external product and CMUX. Torus elements are `BitVec W`; `N = 2^n`; the secret key has `k` polynomials; all masks
and bounded noises are universally quantified. Bounds are explicit: `2^(W - log*count - 1)` is the rounding error of the
radix decomposition, `2^(log-1)` the largest digit, `E` the bound of the noise in the GGSW ciphertext, `S` the bound of the
key coefficients (1 for binary keys).
-/
namespace Spf.Props
open Spf.Spec Spf.Tfhe Polynomial

/-- every coefficient of the key has absolute value at most `S` -/
def KeyBound {W : Nat} (S : Nat) (sk : List (List (BitVec W))) : Prop := ∀ s ∈ sk, ∀ x ∈ s, x.toInt.natAbs ≤ S

/-- the shape of a freshly allocated (all-zero) GGSW ciphertext: `k + 1` rows of `count` zero GLWE ciphertexts -/
def freshGgsw (W k N count : Nat) : List (List (Glwe (BitVec W))) := List.replicate (k + 1) (List.replicate count (glweZero k N))

theorem key_small {W N S : Nat} {sk : List (List (BitVec W))} {k : Nat} (hsk : KeyFor sk k N) (h : KeyBound S sk) :
    ∀ s ∈ sk, Small N S (cls N s) := fun s hs =>
  ⟨s.map BitVec.toInt, by rw [List.length_map]; exact hsk.2 s hs, by
    intro e he
    obtain ⟨x, hx, rfl⟩ := List.mem_map.1 he
    exact h s hs x hx, by simp [List.map_map, Function.comp_def]⟩

theorem fresh_ok {W k N count : Nat} : ∀ row ∈ freshGgsw W k N count, row.length = count ∧ ∀ b ∈ row, FreshBuf k N b := by
  intro row hrow
  rw [freshGgsw] at hrow
  rw [List.eq_of_mem_replicate hrow]
  refine ⟨by simp, fun b hb => ?_⟩
  rw [List.eq_of_mem_replicate hb]
  exact ⟨glweZero_valid k N, by simp [glweZero]⟩

theorem ggsw_exists {W n k E : Nat} (hW : W ≤ 64) (r : Radix) (hl : 0 < r.log) (hc : 0 < r.count) (hlt : r.log * r.count < W) (bits : Nat)
    (hbits : bits < W) (msg : List (BitVec W)) (hm : msg.length = 2 ^ n) (hmb : ∀ x ∈ msg, x.toNat < 2 ^ bits) (sk : List (List (BitVec W)))
    (hsk : KeyFor sk k (2 ^ n)) (masks : Nat → Nat → List (List (BitVec W))) (hma : ∀ i j, KeyFor (masks i j) k (2 ^ n))
    (noise : Nat → Nat → Option (List Int)) (hno : ∀ i j, NoiseOk (2 ^ n) E (noise i j)) :
    ∃ g, ggswEncrypt (2 ^ n) r bits (freshGgsw W k (2 ^ n) r.count) msg sk masks (fun i j => (noise i j).map fun l => l.map (BitVec.ofInt W)) = some g ∧
      GgswOk k (2 ^ n) r.log r.count E sk (cls (2 ^ n) msg) g := by
  obtain ⟨g, h1, h2⟩ := ggswRows_spec hW r hl hc (le_of_lt hlt) msg hm sk hsk masks noise hma hno 0 (freshGgsw W k (2 ^ n) r.count)
    (by simp [freshGgsw]) (by omega) fresh_ok
  refine ⟨g, ?_, by rw [List.drop_zero] at h2; exact h2⟩
  rw [ggswEncrypt, if_pos]
  · exact h1
  · refine ⟨by omega, fun x hx => ?_⟩
    rw [BitVec.lt_def, BitVec.toNat_ofNat, Nat.mod_eq_of_lt (Nat.pow_lt_pow_right (by decide) hbits)]
    exact hmb x hx

/-- **C56, external product.** Encrypt `msg` (coefficients below `2^bits`, each of absolute value at most `m`) as a fresh
GGSW ciphertext. Encryption succeeds, and the external product with *any* GLWE ciphertext `x` succeeds and decrypts,
coefficient by coefficient, to the negacyclic product of `msg` with the decryption of `x`, up to
`N*m*(1 + k*N*S)*rounding + (k+1)*count*N*2^(log-1)*E`. -/
theorem C56_external_product (W : Nat) (hW : W ≤ 64) (n k E S m : Nat) (r : Radix) (hl : 0 < r.log) (hc : 0 < r.count)
    (hlt : r.log * r.count < W) (bits : Nat) (hbits : bits < W) (msg : List (BitVec W)) (hm : msg.length = 2 ^ n)
    (hmb : ∀ x ∈ msg, x.toNat < 2 ^ bits) (hmm : ∀ x ∈ msg, x.toInt.natAbs ≤ m) (sk : List (List (BitVec W)))
    (hsk : KeyFor sk k (2 ^ n)) (hS : KeyBound S sk) (masks : Nat → Nat → List (List (BitVec W)))
    (hma : ∀ i j, KeyFor (masks i j) k (2 ^ n)) (noise : Nat → Nat → Option (List Int)) (hno : ∀ i j, NoiseOk (2 ^ n) E (noise i j)) :
    ∃ g, ggswEncrypt (2 ^ n) r bits (freshGgsw W k (2 ^ n) r.count) msg sk masks (fun i j => (noise i j).map fun l => l.map (BitVec.ofInt W)) = some g ∧
      ∀ x : Glwe (BitVec W), x.valid k (2 ^ n) → ∃ out mx y, externalProduct k (2 ^ n) r g x = some out ∧ out.valid k (2 ^ n) ∧
        glweDecrypt x sk = some mx ∧ glweDecrypt out sk = some y ∧
        ∀ q : List (BitVec W), q.length = 2 ^ n → cls (2 ^ n) q = cls (2 ^ n) msg * cls (2 ^ n) mx →
          NearPoly (2 ^ n * (m * (2 ^ (W - r.log * r.count - 1) + k * (2 ^ n * (S * 2 ^ (W - r.log * r.count - 1))))) +
            (k + 1) * (r.count * (2 ^ n * (2 ^ (r.log - 1) * E)))) y q := by
  have hN : isPow2 (2 ^ n) = true := isPow2_iff.mpr ⟨n, rfl⟩
  obtain ⟨g, h1, h2⟩ := ggsw_exists hW r hl hc hlt bits hbits msg hm hmb sk hsk masks hma noise hno
  refine ⟨g, h1, fun x hx => ?_⟩
  obtain ⟨out, ρ, ν, o1, o2, o3, o4, o5⟩ := externalProduct_spec hN hl hc hlt sk hsk.1 (key_small hsk hS) _ g h2 x hx
  obtain ⟨mx, m1, m2, m3⟩ := decrypt_phase hN x sk hx hsk.2
  obtain ⟨y, y1, y2, y3⟩ := decrypt_phase hN out sk o2 hsk.2
  refine ⟨out, mx, y, o1, o2, m1, y1, fun q hq hqc => ?_⟩
  apply nearPoly_of_small y2 hq
  have hM : Small (2 ^ n) m (cls (2 ^ n) msg) := ⟨msg.map BitVec.toInt, by simpa using hm, by
    intro e he
    obtain ⟨z, hz, rfl⟩ := List.mem_map.1 he
    exact hmm z hz, by simp [List.map_map, Function.comp_def]⟩
  have key : cls (2 ^ n) y - cls (2 ^ n) q = cls (2 ^ n) msg * ρ + ν := by
    rw [hqc, m3, y3, o5]; ring
  rw [key]
  exact (hM.mul o3).add o4

theorem bit_cls {W N : Nat} (hN : 0 < N) (bit : Bool) :
    cls N ((if bit then 1 else 0 : BitVec W) :: List.replicate (N - 1) 0) = (if bit then 1 else 0) := by
  rw [cls_cons, cls_replicate_zero, mul_zero, add_zero]
  cases bit
  · exact map_zero _
  · exact map_one _

/-- **C56, CMUX.** Encrypt a bit as a fresh scalar GGSW ciphertext. CMUX of *any* two GLWE ciphertexts succeeds and
decrypts, coefficient by coefficient, to the decryption of the selected one, up to
`(1 + k*N*S)*rounding + (k+1)*count*N*2^(log-1)*E + (1 + k*N*S)*F`, where `F` bounds the coefficients of `fe`, the error of
the floating-point Fourier transform. -/
theorem C56_cmux (W : Nat) (hW : W ≤ 64) (n k E S F : Nat) (r : Radix) (hl : 0 < r.log) (hc : 0 < r.count)
    (hlt : r.log * r.count < W) (bit : Bool) (sk : List (List (BitVec W))) (hsk : KeyFor sk k (2 ^ n)) (hS : KeyBound S sk)
    (masks : Nat → Nat → List (List (BitVec W))) (hma : ∀ i j, KeyFor (masks i j) k (2 ^ n)) (noise : Nat → Nat → Option (List Int))
    (hno : ∀ i j, NoiseOk (2 ^ n) E (noise i j)) :
    ∃ g, ggswEncryptScalar (2 ^ n) r 1 (freshGgsw W k (2 ^ n) r.count) (if bit then 1 else 0) sk masks
        (fun i j => (noise i j).map fun l => l.map (BitVec.ofInt W)) = some g ∧
      ∀ d0 d1 fe : Glwe (BitVec W), d0.valid k (2 ^ n) → d1.valid k (2 ^ n) → fe.valid k (2 ^ n) →
        (∀ p ∈ fe.b :: fe.a, ∀ x ∈ p, x.toInt.natAbs ≤ F) →
        ∃ out m0 m1 y, cmux k (2 ^ n) r fe d0 d1 g = some out ∧ out.valid k (2 ^ n) ∧
          glweDecrypt d0 sk = some m0 ∧ glweDecrypt d1 sk = some m1 ∧ glweDecrypt out sk = some y ∧
          NearPoly (2 ^ (W - r.log * r.count - 1) + k * (2 ^ n * (S * 2 ^ (W - r.log * r.count - 1))) +
            (k + 1) * (r.count * (2 ^ n * (2 ^ (r.log - 1) * E))) + (F + k * (2 ^ n * (F * S)))) y (if bit then m1 else m0) := by
  have hN : isPow2 (2 ^ n) = true := isPow2_iff.mpr ⟨n, rfl⟩
  have hNp : 0 < 2 ^ n := Nat.two_pow_pos n
  have hl1 : 1 < W := by have := Nat.mul_pos hl hc; omega
  obtain ⟨g, h1, h2⟩ := ggsw_exists hW r hl hc hlt 1 hl1 ((if bit then 1 else 0 : BitVec W) :: List.replicate (2 ^ n - 1) 0) (by simp; omega) (by
      intro x hx
      simp only [List.mem_cons] at hx
      rcases hx with rfl | hx
      · cases bit
        · simp
        · show (BitVec.ofNat W 1).toNat < _
          rw [BitVec.toNat_ofNat, Nat.mod_eq_of_lt (Nat.one_lt_two_pow (by omega))]; decide
      · rw [List.eq_of_mem_replicate hx]; simp) sk hsk masks hma noise hno
  rw [bit_cls hNp bit] at h2
  refine ⟨g, by rw [ggswEncryptScalar, if_neg (by omega)]; exact h1, fun d0 d1 fe hd0 hd1 hfe hF => ?_⟩
  have hsm : ∀ p ∈ fe.b :: fe.a, p.length = 2 ^ n → Small (2 ^ n) F (cls (2 ^ n) p) := fun p hp hlen =>
    ⟨p.map BitVec.toInt, by simpa using hlen, by
      intro e he
      obtain ⟨z, hz, rfl⟩ := List.mem_map.1 he
      exact hF p hp z hz, by simp [List.map_map, Function.comp_def]⟩
  obtain ⟨out, o1, o2, o3⟩ := cmux_spec (F := F) hN hl hc hlt sk hsk.1 (key_small hsk hS) bit g h2 fe d0 d1 hfe hd0 hd1
    (fun a ha => hsm a (by simp [ha]) (hfe.2.1 a ha)) (hsm fe.b (by simp) hfe.2.2)
  obtain ⟨m0, a1, a2, a3⟩ := decrypt_phase hN d0 sk hd0 hsk.2
  obtain ⟨m1, b1, b2, b3⟩ := decrypt_phase hN d1 sk hd1 hsk.2
  obtain ⟨y, y1, y2, y3⟩ := decrypt_phase hN out sk o2 hsk.2
  refine ⟨out, m0, m1, y, o1, o2, a1, b1, y1, ?_⟩
  apply nearPoly_of_small y2 (by cases bit <;> simp [a2, b2])
  rw [y3]
  cases bit
  · simp only [Bool.false_eq_true, if_false, a3] at o3 ⊢
    exact o3
  · simp only [if_true, b3] at o3 ⊢
    exact o3

/-- a concrete case meets the hypotheses of both theorems: one key polynomial of degree 4, base 16, 3 digits, noise -/
example : KeyFor [[1#64, 0#64, 0#64, 1#64]] 1 (2 ^ 2) ∧ KeyBound 1 [[1#64, 0#64, 0#64, 1#64]] ∧
    KeyFor [[7#64, 8#64, 9#64, 10#64]] 1 (2 ^ 2) ∧ NoiseOk (2 ^ 2) 3 (some [1, -3, 0, 2]) := by
  refine ⟨⟨rfl, by simp⟩, by simp [KeyBound], ⟨rfl, by simp⟩, ?_⟩
  intro l hl
  obtain rfl := Option.some.inj hl
  exact ⟨rfl, by decide⟩

/-- and the product is computed: a selector of 1 picks `d1` (trivial ciphertexts, exact digits) -/
example : ((ggswEncryptScalar (W := 8) 1 ⟨3, 2⟩ 1 (freshGgsw 8 1 1 2) 1 [[1]] (fun i j => [[BitVec.ofNat 8 (5 * i + j)]])
    (fun _ _ => none)).bind fun g => (cmux 1 1 ⟨3, 2⟩ (glweZero 1 1) ⟨[[0]], [0x14#8]⟩ ⟨[[0]], [0x78#8]⟩ g).bind
      fun c => glweDecrypt c [[1]]) = some [0x78#8] := by decide +kernel

/-- **C56, decoding.** If the input noise plus the CMUX error is below half an encoding step, every coefficient of the
result decodes to the corresponding coefficient of the selected message. -/
theorem C56_near_decodes {W : Nat} (p B : Nat) (hp0 : 0 < p) (hp : p < W) (hp32 : p < 32) (hB : B < 2 ^ (W - p - 1))
    (ms : List Nat) (hms : ∀ m ∈ ms, m < 2 ^ p) (y : List (BitVec W))
    (hnear : NearPoly B y (ms.map fun m => wrapShl (BitVec.ofNat W m) (W - p))) :
    y.mapM (fun v => decode v p) = some (ms.map (BitVec.ofNat W)) := by
  have hb : (2 ^ (W - p - 1) : Int) = ((2 ^ (W - p - 1) : Nat) : Int) := by push_cast; rfl
  induction ms generalizing y with
  | nil =>
    rw [List.map_nil, NearPoly, List.forall₂_nil_right_iff] at hnear
    subst hnear; rfl
  | cons m ms ih =>
    rw [List.map_cons, NearPoly] at hnear
    cases hnear with
    | cons h1 h2 =>
      obtain ⟨e, he, rfl⟩ := h1
      obtain ⟨c, h7, h8⟩ := C44_decode_encode_partial W p hp0 hp hp32 m (hms m (by simp)) e (by rw [hb]; omega) (by rw [hb]; omega)
      rw [encode, if_pos hp] at h7
      rw [List.mapM_cons, Option.some.inj h7, h8, ih (fun z hz => hms z (by simp [hz])) _ h2]
      simp

end Spf.Props
