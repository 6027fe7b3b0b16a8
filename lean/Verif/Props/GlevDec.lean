import Verif.Proof.GlevDec
import Verif.Props.Ggsw
import Verif.Props.Trace
import Verif.Props.Rlwe
import Verif.Props.SchemeSwitch
/-!
C88: encrypting and decrypting GLev and GGSW ciphertexts. C89: public-key RLev encryption. `N = 2^n`, `k` key polynomials,
torus of `W ≤ 64` bits; masks and (bounded) noises are universally quantified.
-/
namespace Spf.Props
open Spf.Spec Spf.Tfhe Polynomial

/-- keeping the low `log` bits of a value below `2^log` changes nothing -/
theorem mask_id {W l : Nat} (hl : l ≤ W) (ms : List (BitVec W)) (h : ∀ x ∈ ms, x.toNat < 2 ^ l) :
    ms.map (· &&& BitVec.ofNat W (2 ^ l - 1)) = ms := by
  conv_rhs => rw [← List.map_id ms]
  apply List.map_congr_left
  intro x hx
  apply BitVec.eq_of_toNat_eq
  rw [and_mask_toNat _ hl, Nat.mod_eq_of_lt (h x hx)]; rfl

/-- a freshly allocated (all-zero) GLev ciphertext -/
def freshGlev (W k N count : Nat) : List (Glwe (BitVec W)) := List.replicate count (glweZero k N)

theorem freshGlev_ok {W k N count : Nat} : (freshGlev W k N count).length = count ∧ ∀ b ∈ freshGlev W k N count, FreshBuf k N b := by
  refine ⟨by simp [freshGlev], fun b hb => ?_⟩
  rw [List.eq_of_mem_replicate hb]
  exact ⟨glweZero_valid k N, by simp [glweZero]⟩

/-- **C88, GLev.** Encrypt any polynomial `msg` as a fresh GLev ciphertext. Every one of its GLWE ciphertexts `i` whose
gadget factor is at least 2 decrypts to the low `log` bits of every coefficient of `msg`, if the noise is below half the
gadget factor; so a message with coefficients below `2^log` is recovered exactly, from every level, in particular by
`decrypt_glev_ciphertext` (level 0). Missing from the full claim: messages above the base (`C88_truncation_violated`), and
the level with gadget factor 1 (`C88_full_width_violated`). -/
theorem C88_glev_partial (W : Nat) (hW : W ≤ 64) (n k E : Nat) (r : Radix) (hl : 0 < r.log) (hc : 0 < r.count) (hlc : r.log * r.count ≤ W)
    (msg : List (BitVec W)) (hm : msg.length = 2 ^ n) (sk : List (List (BitVec W))) (hsk : KeyFor sk k (2 ^ n))
    (masks : Nat → List (List (BitVec W))) (hma : ∀ j, KeyFor (masks j) k (2 ^ n)) (noise : Nat → Option (List Int))
    (hno : ∀ j, NoiseOk (2 ^ n) E (noise j)) :
    ∃ ct, glevEncrypt (2 ^ n) r (freshGlev W k (2 ^ n) r.count) msg sk masks (fun j => (noise j).map fun l => l.map (BitVec.ofInt W)) = some ct ∧
      (∀ i, i < r.count → r.log * (i + 1) < W → E < 2 ^ (W - r.log * (i + 1) - 1) →
        glevDecryptAt r ct sk i = some (msg.map (· &&& BitVec.ofNat W (2 ^ r.log - 1)))) ∧
      (r.log < W → E < 2 ^ (W - r.log - 1) → (∀ x ∈ msg, x.toNat < 2 ^ r.log) → glevDecrypt r ct sk = some msg) := by
  obtain ⟨row, h1, h2⟩ := glevEncrypt_spec hW r hl hc hlc msg hm sk hsk masks noise hma hno _ freshGlev_ok.1 freshGlev_ok.2
  have key : ∀ i, i < r.count → r.log * (i + 1) < W → E < 2 ^ (W - r.log * (i + 1) - 1) →
      glevDecryptAt r row sk i = some (msg.map (· &&& BitVec.ofNat W (2 ^ r.log - 1))) := fun i hi hli hE =>
    glevDecryptAt_spec hl hc hlc hi hli (by have := Nat.le_mul_of_pos_right r.log (show 0 < i + 1 by omega); omega) hE sk hsk msg hm row h2
  refine ⟨row, h1, key, fun hlW hE hx => ?_⟩
  rw [glevDecrypt, key 0 hc (by omega) (by rw [Nat.zero_add, Nat.mul_one]; exact hE), mask_id (by omega) msg hx]

/-- decrypting anything that is a GGSW encryption of `ms` -/
theorem ggswDecrypt_ok {W n k E : Nat} {r : Radix} (hl : 0 < r.log) (hc : 0 < r.count) (hlt : r.log * r.count < W)
    (hE : E < 2 ^ (W - r.log - 1)) {ms : List (BitVec W)} (hm : ms.length = 2 ^ n) (hmb : ∀ x ∈ ms, x.toNat < 2 ^ r.log) {sk : List (List (BitVec W))}
    (hl64 : r.log < 64) (hsk : KeyFor sk k (2 ^ n)) {g : List (List (Glwe (BitVec W)))} (hg : GgswOk k (2 ^ n) r.log r.count E sk (cls (2 ^ n) ms) g) :
    ggswDecrypt k r g sk = some ms := by
  have hlW : r.log < W := lt_of_le_of_lt (Nat.le_mul_of_pos_right _ hc) hlt
  have hv : r.valid W = true := by
    have := Nat.mul_comm r.log r.count
    simp only [Radix.valid, Bool.and_eq_true, decide_eq_true_eq]; omega
  have hlen : g.length = k + 1 := by
    rw [← List.Forall₂.length_eq hg, ggswMsgs]; simp [hsk.1]
  have hmk : (ggswMsgs (2 ^ n) (cls (2 ^ n) ms) sk).length = k + 1 := by rw [ggswMsgs]; simp [hsk.1]
  have hrow : GlevOk k (2 ^ n) r.log r.count E sk (cls (2 ^ n) ms) (g[k]'(by omega)) := by
    have := List.Forall₂.get hg (i := k) (by omega) (by omega)
    simp only [List.get_eq_getElem] at this
    have e : (ggswMsgs (2 ^ n) (cls (2 ^ n) ms) sk)[k]'(by omega) = cls (2 ^ n) ms := by
      simp only [ggswMsgs]
      rw [List.getElem_append_right (by simp [hsk.1])]
      simp
    rw [e] at this
    exact this
  rw [ggswDecrypt, if_pos ⟨hv, hlen, hsk.1⟩, ggswDecryptAt, List.getElem?_eq_getElem (by omega)]
  simp only
  rw [glevDecryptAt_spec hl hc (le_of_lt hlt) hc (by omega) hl64 (by rw [Nat.zero_add, Nat.mul_one]; exact hE) sk hsk ms hm _ hrow,
    mask_id (by omega) ms hmb]

/-- decrypting a GGSW encryption of a bit -/
theorem ggswDecrypt_bit {W n k E : Nat} {r : Radix} (hl : 0 < r.log) (hc : 0 < r.count) (hlt : r.log * r.count < W) (hl64 : r.log < 64)
    (hE : E < 2 ^ (W - r.log - 1)) {sk : List (List (BitVec W))} (hsk : KeyFor sk k (2 ^ n)) {bit : Bool} {g : List (List (Glwe (BitVec W)))}
    (hg : GgswOk k (2 ^ n) r.log r.count E sk (if bit then 1 else 0) g) :
    ggswDecrypt k r g sk = some ((if bit then 1 else 0) :: List.replicate (2 ^ n - 1) 0) := by
  have hp := Nat.two_pow_pos n
  have hlW : r.log < W := lt_of_le_of_lt (Nat.le_mul_of_pos_right _ hc) hlt
  refine ggswDecrypt_ok hl hc hlt hE (by simp; omega) ?_ hl64 hsk (by rw [bit_cls hp bit]; exact hg)
  intro x hx
  simp only [List.mem_cons] at hx
  rcases hx with rfl | hx
  · cases bit
    · simp
    · show (BitVec.ofNat W 1).toNat < _
      rw [BitVec.toNat_ofNat, Nat.mod_eq_of_lt (Nat.one_lt_two_pow (by omega))]; exact Nat.one_lt_two_pow (by omega)
  · rw [List.eq_of_mem_replicate hx]; simp

/-- **C88, GGSW.** Encrypt a polynomial with coefficients below `2^bits` as a fresh GGSW ciphertext, with `bits` at most the
log of the base and noise below half the first gadget factor. Decryption returns the polynomial. -/
theorem C88_ggsw_partial (W : Nat) (hW : W ≤ 64) (n k E : Nat) (r : Radix) (hl : 0 < r.log) (hc : 0 < r.count) (hlt : r.log * r.count < W)
    (bits : Nat) (hbits : bits ≤ r.log) (hE : E < 2 ^ (W - r.log - 1)) (msg : List (BitVec W)) (hm : msg.length = 2 ^ n)
    (hmb : ∀ x ∈ msg, x.toNat < 2 ^ bits) (sk : List (List (BitVec W))) (hsk : KeyFor sk k (2 ^ n)) (masks : Nat → Nat → List (List (BitVec W)))
    (hma : ∀ i j, KeyFor (masks i j) k (2 ^ n)) (noise : Nat → Nat → Option (List Int)) (hno : ∀ i j, NoiseOk (2 ^ n) E (noise i j)) :
    ∃ g, ggswEncrypt (2 ^ n) r bits (freshGgsw W k (2 ^ n) r.count) msg sk masks (fun i j => (noise i j).map fun l => l.map (BitVec.ofInt W)) = some g ∧
      ggswDecrypt k r g sk = some msg := by
  have hlW : r.log < W := lt_of_le_of_lt (Nat.le_mul_of_pos_right _ hc) hlt
  obtain ⟨g, h1, h2⟩ := ggsw_exists hW r hl hc hlt bits (by omega) msg hm hmb sk hsk masks hma noise hno
  refine ⟨g, h1, ?_⟩
  exact ggswDecrypt_ok hl hc hlt hE hm (fun x hx => lt_of_lt_of_le (hmb x hx) (Nat.pow_le_pow_right (by decide) hbits)) (by omega) hsk h2

/-- a concrete case meets the hypotheses: base 8, three levels, noise up to 3, and the ciphertext decrypts at every level -/
example : KeyFor [[1#64, 0#64, 0#64, 1#64]] 1 (2 ^ 2) ∧ NoiseOk (2 ^ 2) 3 (some [1, -3, 0, 2]) ∧ 3 < 2 ^ (64 - 3 - 1) := by
  refine ⟨⟨rfl, by simp⟩, ?_, by decide⟩
  intro l hl
  obtain rfl := Option.some.inj hl
  exact ⟨rfl, by decide⟩

example : ((glevEncrypt (W := 10) 2 ⟨2, 3⟩ (freshGlev 10 1 2 3) [3, 1] [[1, 1]] (fun j => [[BitVec.ofNat 10 (97 * j + 5), 11]])
    (fun _ => some [1, -1])).bind fun ct => (glevDecrypt ⟨2, 3⟩ ct [[1, 1]]).bind fun a => (glevDecryptAt ⟨2, 3⟩ ct [[1, 1]] 2).map fun b => (a, b)) =
    some ([3#10, 1], [3#10, 1]) := by decide +kernel

/-- **C88 violated: plaintexts wider than the base.** Encryption accepts a message below `2^bits`, for every `bits < 64`, but
decryption returns only its low `log` bits: in base 4 the 4-bit message 13 comes back as 1. No noise is involved. -/
theorem C88_truncation_violated : ∃ g : List (List (Glwe (BitVec 10))),
    ggswEncrypt 2 ⟨2, 2⟩ 4 (freshGgsw 10 1 2 2) [13, 0] [[1, 1]] (fun i j => [[BitVec.ofNat 10 (97 * i + 5 * j), 11]]) (fun _ _ => none) = some g ∧
      ggswDecrypt 1 ⟨2, 2⟩ g [[1, 1]] = some [1, 0] := by
  refine ⟨_, rfl, ?_⟩
  decide +kernel

/-- **C88 violated: full-width radix.** A radix with one digit of the full width of the torus is accepted by its validity
check and by encryption, but decryption panics (the amount of the rounding shift underflows), whatever the ciphertext. -/
theorem C88_full_width_violated (W : Nat) (r : Radix) (hl : r.log = W) (hc : r.count = 1) (hW : 0 < W) (k : Nat)
    (g : List (List (Glwe (BitVec W)))) (sk : List (List (BitVec W))) (hb : ∀ row ∈ g, ∀ ct ∈ row, ct.b ≠ []) :
    r.valid W = true ∧ ggswDecrypt k r g sk = none := by
  refine ⟨?_, ?_⟩
  · simp only [Radix.valid, Bool.and_eq_true, decide_eq_true_eq, hl, hc]; omega
  · rw [ggswDecrypt]
    split
    · rw [ggswDecryptAt]
      cases hk : g[k]? with
      | none => rfl
      | some row =>
        simp only
        rw [glevDecryptAt]
        split
        · cases hr : row[0]? with
          | none => rfl
          | some ct =>
            simp only
            have hb' := hb row (List.mem_of_getElem? hk) ct (List.mem_of_getElem? hr)
            rw [glweDecrypt]
            cases madAll (List.replicate ct.b.length 0) ct.a sk with
            | none => rfl
            | some tmp =>
              simp only
              obtain ⟨x, xs, hx⟩ : ∃ x xs, polySubAssign ct.b tmp = x :: xs := by
                cases hh : ct.b with
                | nil => exact absurd hh hb'
                | cons x xs => cases tmp <;> exact ⟨_, _, rfl⟩
              rw [hx, List.mapM_cons, glevRoundCoeff, if_neg (by rw [hl]; omega)]
              rfl
        · rfl
    · rfl

/-- the hypotheses are met by a fresh encryption, which succeeds -/
example : ∃ g : List (List (Glwe (BitVec 4))), ggswEncrypt 2 ⟨4, 1⟩ 1 (freshGgsw 4 1 2 1) [1, 0] [[1, 1]] (fun _ _ => [[3, 7]]) (fun _ _ => none) = some g ∧
    (∀ row ∈ g, ∀ ct ∈ row, ct.b ≠ []) ∧ ggswDecrypt 1 ⟨4, 1⟩ g [[1, 1]] = none := by
  refine ⟨_, rfl, by decide +kernel, by decide +kernel⟩

/-! ### trivial encryptions -/

theorem glevTrivialRows_spec {W n k l c : Nat} (hW : W ≤ 64) (hl : 0 < l) (hlc : l * c ≤ W) (msg : List (BitVec W)) (hm : msg.length = 2 ^ n)
    (sk : List (List (BitVec W))) : ∀ (j m : Nat), j + m ≤ c →
    ∃ row, glevTrivialRows l msg j (freshGlev W k (2 ^ n) m) = some row ∧ row.length = m ∧
      (∀ r ∈ row, r.valid k (2 ^ n)) ∧ ∀ t (h : t < row.length), 
        phG (2 ^ n) sk row[t] = cls (2 ^ n) msg * em (2 ^ n) (BitVec.ofNat W (2 ^ (W - l * (j + t + 1))))
  | j, 0, _ => ⟨[], rfl, rfl, by simp, by intro t h; simp at h⟩
  | j, m + 1, hj => by
    obtain ⟨row, h1, h2, h3, h4⟩ := glevTrivialRows_spec hW hl hlc msg hm sk (k := k) (j + 1) m (by omega)
    obtain ⟨ct, c1, c2, c3⟩ := trivial_phase (k := k) sk (msg.map fun x => x * BitVec.ofNat W (2 ^ (W - l * (j + 1)))) (N := 2 ^ n) (by simpa using hm)
    refine ⟨ct :: row, ?_, by simp [h2], ?_, ?_⟩
    · rw [freshGlev, List.replicate_succ, glevTrivialRows, scaleMsg, gadgetFactor_some hW hl hlc (show j < c by omega)]
      rw [freshGlev] at h1
      simp only [c1, h1]
    · intro r hr
      simp only [List.mem_cons] at hr
      rcases hr with rfl | hr
      · exact c2
      · exact h3 r hr
    · intro t ht
      cases t with
      | zero =>
        simp only [List.getElem_cons_zero, Nat.add_zero]
        rw [c3, cls_smul]; rfl
      | succ t =>
        rw [List.getElem_cons_succ, h4 t (by simpa using ht), show j + 1 + t = j + (t + 1) by omega]

/-- **C88, trivial GLev.** A trivial GLev encryption of a polynomial with coefficients below `2^log` decrypts to it under
*every* secret key. -/
theorem C88_trivial_glev (W : Nat) (hW : W ≤ 64) (n k : Nat) (r : Radix) (hl : 0 < r.log) (hc : 0 < r.count) (hlc : r.log * r.count ≤ W)
    (hlW : r.log < W) (msg : List (BitVec W)) (hm : msg.length = 2 ^ n) (hx : ∀ x ∈ msg, x.toNat < 2 ^ r.log) :
    ∃ ct, glevTrivial (2 ^ n) r (freshGlev W k (2 ^ n) r.count) msg = some ct ∧
      ∀ sk, KeyFor sk k (2 ^ n) → glevDecrypt r ct sk = some msg := by
  have hv : r.valid W = true := by
    have := Nat.mul_comm r.log r.count
    simp only [Radix.valid, Bool.and_eq_true, decide_eq_true_eq]; omega
  obtain ⟨row, h1, h2, h3, _⟩ := glevTrivialRows_spec (k := k) hW hl hlc msg hm [] 0 r.count (by omega)
  refine ⟨row, by rw [glevTrivial, if_pos ⟨hv, freshGlev_ok.1, hm⟩]; exact h1, fun sk hsk => ?_⟩
  obtain ⟨row', g1, g2, g3, g4⟩ := glevTrivialRows_spec (k := k) hW hl hlc msg hm sk 0 r.count (by omega)
  rw [h1] at g1
  cases g1
  rw [glevDecrypt, glevDecryptAt_spec (E := 0) hl hc hlc hc (by omega) (by omega) (Nat.two_pow_pos _) sk hsk msg hm row
    ⟨g2, g3, fun t ht => ⟨0, Tfhe.small_zero, by rw [g4 t ht, Nat.zero_add, add_zero]⟩⟩, mask_id (by omega) msg hx]

/-- **C88 violated: trivial GGSW selectors.** A trivial GGSW encryption of 1 decrypts to 1, but as the selector of a CMUX it
does not select: the CMUX of an encryption of 0 and of a (non-trivial, noiseless) encryption of `0x100` does not decrypt to
`0x100`. The rows that belong to the key polynomials are built from the all-zero key. -/
theorem C88_trivial_ggsw_violated : ∃ (g : List (List (Glwe (BitVec 10)))) (d1 c : Glwe (BitVec 10)),
    ggswTrivial 1 2 ⟨2, 4⟩ 1 (freshGgsw 10 1 2 4) [1, 0] = some g ∧ ggswDecrypt 1 ⟨2, 4⟩ g [[1, 1]] = some [1, 0] ∧
      glweEncrypt 2 (glweZero 1 2) [0x100, 0] [[1, 1]] [[0x80, 0]] none = some d1 ∧ glweDecrypt d1 [[1, 1]] = some [0x100, 0] ∧
      cmux 1 2 ⟨2, 4⟩ (glweZero 1 2) (glweZero 1 2) d1 g = some c ∧ glweDecrypt c [[1, 1]] = some [0x180, 0x80] := by
  refine ⟨_, ⟨[[0x80, 0]], [0x180, 0x80]⟩, _, rfl, by decide +kernel, by decide +kernel, by decide +kernel, rfl, by decide +kernel⟩

/-! ### public-key RLev encryption -/

/-- the noise of one public-key encryption: key noise and encryption noise at most `E`, `u` at most `U`, key at most `S` -/
theorem rlwe_noise_small {W N E U S : Nat} {e u e0 e1 s : List (BitVec W)} (he : Small N E (cls N e)) (hu : Small N U (cls N u))
    (he0 : Small N E (cls N e0)) (he1 : Small N E (cls N e1)) (hs : Small N S (cls N s)) :
    Small N (N * (E * U) + E + N * (E * S)) (cls N e * cls N u + cls N e1 - cls N e0 * cls N s) :=
  ((he.mul hu).add he1).sub (he0.mul hs)

theorem rlevRows_spec {W n l c E U S : Nat} (hW : W ≤ 64) (hl : 0 < l) (hlc : l * c ≤ W) (h16 : 16 ≤ 2 ^ n) (msg : List (BitVec W)) (hm : msg.length = 2 ^ n)
    (s mask e : List (BitVec W)) (hs : s.length = 2 ^ n) (hmask : mask.length = 2 ^ n) (he : e.length = 2 ^ n) (hS : ∀ x ∈ s, x.toInt.natAbs ≤ S)
    (hE : ∀ x ∈ e, x.toInt.natAbs ≤ E) (u e0 e1 : Nat → List (BitVec W)) (hu : ∀ j, (u j).length = 2 ^ n ∧ ∀ x ∈ u j, x.toInt.natAbs ≤ U)
    (he0 : ∀ j, (e0 j).length = 2 ^ n ∧ ∀ x ∈ e0 j, x.toInt.natAbs ≤ E) (he1 : ∀ j, (e1 j).length = 2 ^ n ∧ ∀ x ∈ e1 j, x.toInt.natAbs ≤ E)
    (pk : Glwe (BitVec W)) (hpk : rlwePublicKey (2 ^ n) s mask (some e) = some pk) :
    ∀ (j m : Nat), j + m ≤ c → ∃ row, rlevRows (2 ^ n) l msg pk u e0 e1 j m = some row ∧ row.length = m ∧
      (∀ r ∈ row, r.valid 1 (2 ^ n)) ∧ ∀ t (h : t < row.length), ∃ ν, Small (2 ^ n) (2 ^ n * (E * U) + E + 2 ^ n * (E * S)) ν ∧
        phG (2 ^ n) [s] row[t] = cls (2 ^ n) msg * em (2 ^ n) (BitVec.ofNat W (2 ^ (W - l * (j + t + 1)))) + ν
  | j, 0, _ => ⟨[], rfl, rfl, by simp, by intro t h; simp at h⟩
  | j, m + 1, hj => by
    obtain ⟨row, h1, h2, h3, h4⟩ := rlevRows_spec hW hl hlc h16 msg hm s mask e hs hmask he hS hE u e0 e1 hu he0 he1 pk hpk (j + 1) m (by omega)
    obtain ⟨pk', ct, ν, p1, c1, c2, c3, c4, c5⟩ := C69_rlwe n s mask e (u j) (e0 j) (e1 j) (msg.map fun x => x * BitVec.ofNat W (2 ^ (W - l * (j + 1))))
      hs hmask he (hu j).1 (he0 j).1 (he1 j).1 (by simpa using hm)
    rw [hpk] at p1
    cases p1
    have hN : isPow2 (2 ^ n) = true := isPow2_iff.mpr ⟨n, rfl⟩
    have hph : phG (2 ^ n) [s] ct = cls (2 ^ n) (msg.map fun x => x * BitVec.ofNat W (2 ^ (W - l * (j + 1)))) + cls (2 ^ n) ν := by
      obtain ⟨y, y1, y2, y3⟩ := decrypt_phase hN ct [s] c2 (by simpa [AllLen] using hs)
      rw [c4] at y1
      cases y1
      rw [← y3, cls_zipWith_add _ _ _ (by simp [hm, c3])]
    refine ⟨ct :: row, ?_, by simp [h2], ?_, ?_⟩
    · rw [rlevRows, scaleMsg, gadgetFactor_some hW hl hlc (show j < c by omega)]
      simp only
      rw [if_neg (by simp [hm]; omega)]
      simp only [c1, h1]
    · intro r hr
      simp only [List.mem_cons] at hr
      rcases hr with rfl | hr
      · exact c2
      · exact h3 r hr
    · intro t ht
      cases t with
      | zero =>
        refine ⟨cls (2 ^ n) ν, ?_, ?_⟩
        · rw [c5]
          exact rlwe_noise_small (small_of_bound he hE) (small_of_bound (hu j).1 (hu j).2) (small_of_bound (he0 j).1 (he0 j).2)
            (small_of_bound (he1 j).1 (he1 j).2) (small_of_bound hs hS)
        · simp only [List.getElem_cons_zero, Nat.add_zero]
          rw [hph, cls_smul]; rfl
      | succ t =>
        obtain ⟨ν', h5, h6⟩ := h4 t (by simpa using ht)
        exact ⟨ν', h5, by rw [List.getElem_cons_succ, h6, show j + 1 + t = j + (t + 1) by omega]⟩

theorem rlev_ok {W n E U S : Nat} (hW : W ≤ 64) (h16 : 4 ≤ n) (r : Radix) (hl : 0 < r.log) (hc : 0 < r.count) (hlc : r.log * r.count ≤ W)
    (msg : List (BitVec W)) (hm : msg.length = 2 ^ n) (s mask e : List (BitVec W)) (hs : s.length = 2 ^ n) (hmask : mask.length = 2 ^ n)
    (he : e.length = 2 ^ n) (hS : ∀ x ∈ s, x.toInt.natAbs ≤ S) (hE : ∀ x ∈ e, x.toInt.natAbs ≤ E) (u e0 e1 : Nat → List (BitVec W))
    (hu : ∀ j, (u j).length = 2 ^ n ∧ ∀ x ∈ u j, x.toInt.natAbs ≤ U) (he0 : ∀ j, (e0 j).length = 2 ^ n ∧ ∀ x ∈ e0 j, x.toInt.natAbs ≤ E)
    (he1 : ∀ j, (e1 j).length = 2 ^ n ∧ ∀ x ∈ e1 j, x.toInt.natAbs ≤ E) :
    ∃ pk ct, rlwePublicKey (2 ^ n) s mask (some e) = some pk ∧ rlevEncrypt (2 ^ n) r msg pk u e0 e1 = some ct ∧
      GlevOk 1 (2 ^ n) r.log r.count (2 ^ n * (E * U) + E + 2 ^ n * (E * S)) [s] (cls (2 ^ n) msg) ct := by
  have hv : r.valid W = true := by
    have := Nat.mul_comm r.log r.count
    simp only [Radix.valid, Bool.and_eq_true, decide_eq_true_eq]; omega
  obtain ⟨pk, _, _, p1, _⟩ := C69_rlwe n s mask e (u 0) (e0 0) (e1 0) msg hs hmask he (hu 0).1 (he0 0).1 (he1 0).1 hm
  obtain ⟨row, h1, h2, h3, h4⟩ := rlevRows_spec hW hl hlc (le_trans (by decide : 16 ≤ 2 ^ 4) (Nat.pow_le_pow_right (by decide) h16)) msg hm s mask e hs hmask he hS hE
    u e0 e1 hu he0 he1 pk p1 0 r.count (by omega)
  exact ⟨pk, row, p1, by rw [rlevEncrypt, if_pos ⟨hv, hm⟩]; exact h1, h2, h3, fun t ht => by
      obtain ⟨ν, n1, n2⟩ := h4 t ht
      exact ⟨ν, n1, by rw [n2, Nat.zero_add]⟩⟩

/-- **C89.** Generate a public key for any key `s` (coefficients at most `S`), encrypt any polynomial of at least 16
coefficients below `2^log` as an RLev ciphertext under it, with any draws `u` (at most `U`) and noises (at most `E`).
If `N*E*U + E + N*E*S` is below half the first gadget factor, the ciphertext decrypts under `s` to the polynomial; more
generally every level `i` recovers the low `log` bits. Missing from the full claim: polynomials of degree below 16
(`C89_small_degree_violated`) and the exceptions of C88. -/
theorem C89_rlev_partial (W : Nat) (hW : W ≤ 64) (n E U S : Nat) (h16 : 4 ≤ n) (r : Radix) (hl : 0 < r.log) (hc : 0 < r.count) (hlc : r.log * r.count ≤ W)
    (msg : List (BitVec W)) (hm : msg.length = 2 ^ n) (s mask e : List (BitVec W)) (hs : s.length = 2 ^ n) (hmask : mask.length = 2 ^ n)
    (he : e.length = 2 ^ n) (hS : ∀ x ∈ s, x.toInt.natAbs ≤ S) (hE : ∀ x ∈ e, x.toInt.natAbs ≤ E) (u e0 e1 : Nat → List (BitVec W))
    (hu : ∀ j, (u j).length = 2 ^ n ∧ ∀ x ∈ u j, x.toInt.natAbs ≤ U) (he0 : ∀ j, (e0 j).length = 2 ^ n ∧ ∀ x ∈ e0 j, x.toInt.natAbs ≤ E)
    (he1 : ∀ j, (e1 j).length = 2 ^ n ∧ ∀ x ∈ e1 j, x.toInt.natAbs ≤ E) :
    ∃ pk ct, rlwePublicKey (2 ^ n) s mask (some e) = some pk ∧ rlevEncrypt (2 ^ n) r msg pk u e0 e1 = some ct ∧
      (∀ i, i < r.count → r.log * (i + 1) < W → 2 ^ n * (E * U) + E + 2 ^ n * (E * S) < 2 ^ (W - r.log * (i + 1) - 1) →
        glevDecryptAt r ct [s] i = some (msg.map (· &&& BitVec.ofNat W (2 ^ r.log - 1)))) ∧
      (r.log < W → 2 ^ n * (E * U) + E + 2 ^ n * (E * S) < 2 ^ (W - r.log - 1) → (∀ x ∈ msg, x.toNat < 2 ^ r.log) →
        glevDecrypt r ct [s] = some msg) := by
  obtain ⟨pk, row, p1, p2, hrow⟩ := rlev_ok hW h16 r hl hc hlc msg hm s mask e hs hmask he hS hE u e0 e1 hu he0 he1
  have hsk : KeyFor [s] 1 (2 ^ n) := ⟨rfl, by simpa using hs⟩
  have key : ∀ i, i < r.count → r.log * (i + 1) < W → 2 ^ n * (E * U) + E + 2 ^ n * (E * S) < 2 ^ (W - r.log * (i + 1) - 1) →
      glevDecryptAt r row [s] i = some (msg.map (· &&& BitVec.ofNat W (2 ^ r.log - 1))) := fun i hi hli hE' =>
    glevDecryptAt_spec hl hc hlc hi hli (by have := Nat.le_mul_of_pos_right r.log (show 0 < i + 1 by omega); omega) hE' [s] hsk msg hm row hrow
  refine ⟨pk, row, p1, p2, key, fun hlW hE' hx => ?_⟩
  rw [glevDecrypt, key 0 hc (by omega) (by rw [Nat.zero_add, Nat.mul_one]; exact hE'), mask_id (by omega) msg hx]

/-- **C89, selectors from public-key encryptions.** Scheme switching turns a public-key RLev encryption of a bit (the
constant polynomial) into a GGSW ciphertext that selects by that bit in a CMUX, for every draw and every output buffer. -/
theorem C89_rlev_selects_partial (W : Nat) (hW : W ≤ 64) (n E U S Es F : Nat) (h16 : 4 ≤ n) (r rs : Radix) (hl : 0 < r.log) (hc : 0 < r.count)
    (hlt : r.log * r.count < W) (hls : 0 < rs.log) (hcs : 0 < rs.count) (hlts : rs.log * rs.count < W) (bit : Bool)
    (s mask e : List (BitVec W)) (hs : s.length = 2 ^ n) (hmask : mask.length = 2 ^ n) (he : e.length = 2 ^ n)
    (hS : ∀ x ∈ s, x.toInt.natAbs ≤ S) (hE : ∀ x ∈ e, x.toInt.natAbs ≤ E) (u e0 e1 : Nat → List (BitVec W))
    (hu : ∀ j, (u j).length = 2 ^ n ∧ ∀ x ∈ u j, x.toInt.natAbs ≤ U) (he0 : ∀ j, (e0 j).length = 2 ^ n ∧ ∀ x ∈ e0 j, x.toInt.natAbs ≤ E)
    (he1 : ∀ j, (e1 j).length = 2 ^ n ∧ ∀ x ∈ e1 j, x.toInt.natAbs ≤ E)
    (masks : Nat → Nat → List (List (BitVec W))) (hma : ∀ i j, KeyFor (masks i j) 1 (2 ^ n))
    (noise : Nat → Nat → Option (List Int)) (hno : ∀ i j, NoiseOk (2 ^ n) Es (noise i j)) :
    ∃ pk ct ssk, rlwePublicKey (2 ^ n) s mask (some e) = some pk ∧
      rlevEncrypt (2 ^ n) r ((if bit then 1 else 0) :: List.replicate (2 ^ n - 1) 0) pk u e0 e1 = some ct ∧
      sskGen 1 (2 ^ n) rs (freshSsk W 1 (2 ^ n) rs.count) [s] masks (fun i j => (noise i j).map fun l => l.map (BitVec.ofInt W)) = some ssk ∧
      ∀ out : List (List (Glwe (BitVec W))), out.length = 2 → (∀ row ∈ out, row.length = r.count) →
        ∃ g, schemeSwitch 1 (2 ^ n) r rs out ct ssk = some g ∧
          Selects 1 n r [s] F (cmuxError W 1 (2 ^ n) r S (switchedNoise W 1 (2 ^ n) rs S (2 ^ n * (E * U) + E + 2 ^ n * (E * S)) Es) F) bit g := by
  have hpos := Nat.two_pow_pos n
  have hsk : KeyFor [s] 1 (2 ^ n) := ⟨rfl, by simpa using hs⟩
  have hkb : KeyBound S [s] := by simpa [KeyBound] using hS
  obtain ⟨pk, ct, p1, p2, p3⟩ := rlev_ok hW h16 r hl hc (le_of_lt hlt) ((if bit then 1 else 0) :: List.replicate (2 ^ n - 1) 0) (by simp; omega)
    s mask e hs hmask he hS hE u e0 e1 hu he0 he1
  rw [bit_cls hpos bit] at p3
  obtain ⟨ssk, s1, s2⟩ := ssk_exists hW rs hls hcs hlts [s] hsk masks hma noise hno
  refine ⟨pk, ct, ssk, p1, p2, s1, fun out ho hr => ?_⟩
  obtain ⟨g, h1, h2⟩ := schemeSwitch_spec hls hcs hlts [s] hsk (key_small hsk hkb) ssk s2 _ ct p3 out ho hr
  exact ⟨g, h1, selects_of_ok hl hc hlt hsk hkb h2⟩

/-- the default parameters (degree 2048, base `2^4`, 4 levels) with noise up to `2^20` is within the bound -/
example : (4 : Nat) ≤ 11 ∧ 4 * 4 ≤ 64 ∧ 2 ^ 11 * (2 ^ 20 * 1) + 2 ^ 20 + 2 ^ 11 * (2 ^ 20 * 1) < 2 ^ (64 - 4 - 1) := by decide

/-- **C89 violated: polynomials of degree below 16.** A leftover debugging statement prints the first sixteen coefficients
of the scaled message to the standard error stream before each encryption; with fewer coefficients it panics, for every
key and message. -/
theorem C89_small_degree_violated {W : Nat} (N : Nat) (hN : N < 16) (r : Radix) (msg : List (BitVec W)) (pk : Glwe (BitVec W))
    (u e0 e1 : Nat → List (BitVec W)) : rlevEncrypt N r msg pk u e0 e1 = none := by
  rw [rlevEncrypt]
  split
  · rename_i h
    obtain ⟨c, hc⟩ : ∃ c, r.count = c + 1 := ⟨r.count - 1, by
      have := h.1
      simp only [Radix.valid, Bool.and_eq_true, decide_eq_true_eq] at this; omega⟩
    rw [hc, rlevRows, scaleMsg]
    cases gadgetFactor W r.log 0 with
    | none => rfl
    | some f =>
      simp only
      rw [if_pos (by simp [h.2, hN])]
  · rfl

/-- degree 2 is otherwise valid: secret-key encryption succeeds -/
example : ∃ ct, glevEncrypt (W := 10) 2 ⟨2, 3⟩ (freshGlev 10 1 2 3) [3, 1] [[1, 1]] (fun _ => [[5, 11]]) (fun _ => none) = some ct := ⟨_, rfl⟩

end Spf.Props
