import Verif.Proof.SchemeSwitch
import Verif.Proof.Pbs
/-!
C80: scheme switching turns a GLev ciphertext into a GGSW ciphertext of the same message. Torus elements are `BitVec W`,
`N = 2^n`, the key has `d` polynomials with coefficients of absolute value at most `S`; all masks and bounded noises are
universally quantified. Products are exact (see DESIGN.md for the Fourier transform).
-/
namespace Spf.Props
open Spf.Spec Spf.Tfhe

/-- Specification: as the selector of a CMUX, `g` stands for `bit`: the CMUX of any two GLWE ciphertexts succeeds and
decrypts, coefficient by coefficient, to the decryption of the selected one up to `B`, when the error `fe` of the Fourier
transform has coefficients of absolute value at most `F`. -/
def Selects {W : Nat} (k n : Nat) (r : Radix) (sk : List (List (BitVec W))) (F B : Nat) (bit : Bool) (g : List (List (Glwe (BitVec W)))) : Prop :=
  ∀ d0 d1 fe : Glwe (BitVec W), d0.valid k (2 ^ n) → d1.valid k (2 ^ n) → fe.valid k (2 ^ n) → (∀ p ∈ fe.b :: fe.a, ∀ x ∈ p, x.toInt.natAbs ≤ F) →
    ∃ out m0 m1 y, cmux k (2 ^ n) r fe d0 d1 g = some out ∧ out.valid k (2 ^ n) ∧ glweDecrypt d0 sk = some m0 ∧ glweDecrypt d1 sk = some m1 ∧
      glweDecrypt out sk = some y ∧ NearPoly B y (if bit then m1 else m0)

theorem selects_of_ok {W n k E S F : Nat} {r : Radix} (hl : 0 < r.log) (hc : 0 < r.count) (hlt : r.log * r.count < W) {sk : List (List (BitVec W))}
    (hsk : KeyFor sk k (2 ^ n)) (hS : KeyBound S sk) {bit : Bool} {g : List (List (Glwe (BitVec W)))}
    (hg : GgswOk k (2 ^ n) r.log r.count E sk (if bit then 1 else 0) g) : Selects k n r sk F (cmuxBound W k (2 ^ n) r S E F) bit g := by
  intro d0 d1 fe hd0 hd1 hfe hF
  have hN : isPow2 (2 ^ n) = true := isPow2_iff.mpr ⟨n, rfl⟩
  obtain ⟨out, o1, o2, o3⟩ := cmux_spec (F := F) hN hl hc hlt sk hsk.1 (key_small hsk hS) bit g hg fe d0 d1 hfe hd0 hd1
    (fun a ha => small_of_bound (hfe.2.1 a ha) (hF a (by simp [ha]))) (small_of_bound hfe.2.2 (hF _ (by simp)))
  obtain ⟨m0, a1, a2, a3⟩ := decrypt_phase hN d0 sk hd0 hsk.2
  obtain ⟨m1, b1, b2, b3⟩ := decrypt_phase hN d1 sk hd1 hsk.2
  obtain ⟨y, y1, y2, y3⟩ := decrypt_phase hN out sk o2 hsk.2
  refine ⟨out, m0, m1, y, o1, o2, a1, b1, y1, ?_⟩
  apply nearPoly_of_small y2 (by cases bit <;> simp [a2, b2])
  rw [y3]
  cases bit
  · simp only [Bool.false_eq_true, if_false, a3] at o3 ⊢
    exact o3
  · simp only [if_true, b3] at o3 ⊢
    exact o3

/-- a freshly allocated scheme switch key: `d(d+1)/2` GLev ciphertexts of `count` zero GLWE ciphertexts -/
def freshSsk (W d N count : Nat) : List (List (Glwe (BitVec W))) := List.replicate (d * (d + 1) / 2) (List.replicate count (glweZero d N))

theorem ssk_exists {W n d E : Nat} (hW : W ≤ 64) (r : Radix) (hl : 0 < r.log) (hc : 0 < r.count) (hlt : r.log * r.count < W)
    (sk : List (List (BitVec W))) (hsk : KeyFor sk d (2 ^ n)) (masks : Nat → Nat → List (List (BitVec W))) (hma : ∀ i j, KeyFor (masks i j) d (2 ^ n))
    (noise : Nat → Nat → Option (List Int)) (hno : ∀ i j, NoiseOk (2 ^ n) E (noise i j)) :
    ∃ ssk, sskGen d (2 ^ n) r (freshSsk W d (2 ^ n) r.count) sk masks (fun i j => (noise i j).map fun l => l.map (BitVec.ofInt W)) = some ssk ∧
      SskOk d (2 ^ n) r.log r.count E sk ssk := by
  have hv : r.valid W = true := by
    have := Nat.mul_comm r.log r.count
    simp only [Radix.valid, Bool.and_eq_true, decide_eq_true_eq]; omega
  have hlen : (freshSsk W d (2 ^ n) r.count).length = (triFrom d 0 0).length := by
    have h1 := triFrom_length d 0 0 (by omega) (by omega) (by omega)
    simp only [Nat.sub_zero, Nat.mul_zero, Nat.add_zero] at h1
    have h2 := tri_even d
    rw [freshSsk, List.length_replicate]; omega
  obtain ⟨ssk, s1, s2⟩ := sskLoop_spec hW r hl hc (le_of_lt hlt) sk hsk masks noise hma hno 0 0 (by omega) (by omega) (by omega) 0 _ hlen (by
    intro row hrow
    rw [freshSsk] at hrow
    rw [List.eq_of_mem_replicate hrow]
    refine ⟨by simp, fun b hb => ?_⟩
    rw [List.eq_of_mem_replicate hb]
    exact ⟨glweZero_valid d (2 ^ n), by simp [glweZero]⟩)
  refine ⟨ssk, ?_, s2⟩
  rw [sskGen, if_pos ⟨hv, by rw [freshSsk, List.length_replicate, triangularEntries], hsk.1⟩]
  exact s1

/-- the noise of the GGSW ciphertext after a scheme switch: that of the GLev ciphertext, `E0`; times the key; the rounding of
the masks times two key polynomials; the noise `Es` of the key times the digits -/
def switchedNoise (W d N : Nat) (rs : Radix) (S E0 Es : Nat) : Nat :=
  E0 + (N * (S * E0) + N * (S * (d * (N * (S * 2 ^ (W - rs.log * rs.count - 1))))) + d * (rs.count * (N * (2 ^ (rs.log - 1) * Es))))

/-- the error of a CMUX whose selector has noise `E`, as in `C56_cmux` -/
def cmuxError (W k N : Nat) (r : Radix) (S E F : Nat) : Nat :=
  2 ^ (W - r.log * r.count - 1) + k * (N * (S * 2 ^ (W - r.log * r.count - 1))) + (k + 1) * (r.count * (N * (2 ^ (r.log - 1) * E))) + (F + k * (N * (F * S)))

/-- **C80.** Generate a scheme switch key for `sk` into fresh memory (it succeeds). Encrypt a bit as a GLev ciphertext. Then
`scheme_switch` into any output of the right shape, whatever it holds, succeeds, and the result selects by that bit, with the
error of a CMUX for the noise `switchedNoise`. -/
theorem C80_scheme_switch (W : Nat) (hW : W ≤ 64) (n d E0 Es S F : Nat) (rs rg : Radix) (hls : 0 < rs.log) (hcs : 0 < rs.count)
    (hlts : rs.log * rs.count < W) (hlg : 0 < rg.log) (hcg : 0 < rg.count) (hltg : rg.log * rg.count < W)
    (sk : List (List (BitVec W))) (hsk : KeyFor sk d (2 ^ n)) (hS : KeyBound S sk)
    (masks : Nat → Nat → List (List (BitVec W))) (hma : ∀ i j, KeyFor (masks i j) d (2 ^ n))
    (noise : Nat → Nat → Option (List Int)) (hno : ∀ i j, NoiseOk (2 ^ n) Es (noise i j)) :
    ∃ ssk, sskGen d (2 ^ n) rs (freshSsk W d (2 ^ n) rs.count) sk masks (fun i j => (noise i j).map fun l => l.map (BitVec.ofInt W)) = some ssk ∧
      ∀ (bit : Bool) (gmasks : Nat → List (List (BitVec W))) (gnoise : Nat → Option (List Int)), (∀ j, KeyFor (gmasks j) d (2 ^ n)) →
        (∀ j, NoiseOk (2 ^ n) E0 (gnoise j)) →
        ∃ glev, glevEncrypt (2 ^ n) rg (List.replicate rg.count (glweZero d (2 ^ n))) ((if bit then 1 else 0) :: List.replicate (2 ^ n - 1) 0) sk gmasks
            (fun j => (gnoise j).map fun l => l.map (BitVec.ofInt W)) = some glev ∧
          ∀ out : List (List (Glwe (BitVec W))), out.length = d + 1 → (∀ row ∈ out, row.length = rg.count) →
            ∃ g, schemeSwitch d (2 ^ n) rg rs out glev ssk = some g ∧
              Selects d n rg sk F (cmuxError W d (2 ^ n) rg S (switchedNoise W d (2 ^ n) rs S E0 Es) F) bit g := by
  obtain ⟨ssk, s1, s2⟩ := ssk_exists hW rs hls hcs hlts sk hsk masks hma noise hno
  refine ⟨ssk, s1, fun bit gmasks gnoise hgm hgn => ?_⟩
  have hpos := Nat.two_pow_pos n
  obtain ⟨glev, g1, g2⟩ := glevEncrypt_spec hW rg hlg hcg (le_of_lt hltg) ((if bit then 1 else 0) :: List.replicate (2 ^ n - 1) 0) (by simp; omega) sk hsk
    gmasks gnoise hgm hgn (List.replicate rg.count (glweZero d (2 ^ n))) (by simp) (fun b hb => by
      rw [List.eq_of_mem_replicate hb]; exact ⟨glweZero_valid d (2 ^ n), by simp [glweZero]⟩)
  rw [bit_cls hpos bit] at g2
  refine ⟨glev, g1, fun out ho hr => ?_⟩
  obtain ⟨g, h1, h2⟩ := schemeSwitch_spec hls hcs hlts sk hsk (key_small hsk hS) ssk s2 _ glev g2 out ho hr
  exact ⟨g, h1, selects_of_ok hlg hcg hltg hsk hS h2⟩

/-- **C80, Fourier version** (`_partial`: the output must be freshly allocated, see `C80_fft_stale_violated`). -/
theorem C80_fft_partial (W : Nat) (hW : W ≤ 64) (n d E0 Es S F : Nat) (rs rg : Radix) (hls : 0 < rs.log) (hcs : 0 < rs.count)
    (hlts : rs.log * rs.count < W) (hlg : 0 < rg.log) (hcg : 0 < rg.count) (hltg : rg.log * rg.count < W)
    (sk : List (List (BitVec W))) (hsk : KeyFor sk d (2 ^ n)) (hS : KeyBound S sk)
    (masks : Nat → Nat → List (List (BitVec W))) (hma : ∀ i j, KeyFor (masks i j) d (2 ^ n))
    (noise : Nat → Nat → Option (List Int)) (hno : ∀ i j, NoiseOk (2 ^ n) Es (noise i j)) :
    ∃ ssk, sskGen d (2 ^ n) rs (freshSsk W d (2 ^ n) rs.count) sk masks (fun i j => (noise i j).map fun l => l.map (BitVec.ofInt W)) = some ssk ∧
      ∀ (bit : Bool) (gmasks : Nat → List (List (BitVec W))) (gnoise : Nat → Option (List Int)), (∀ j, KeyFor (gmasks j) d (2 ^ n)) →
        (∀ j, NoiseOk (2 ^ n) E0 (gnoise j)) →
        ∃ glev, glevEncrypt (2 ^ n) rg (List.replicate rg.count (glweZero d (2 ^ n))) ((if bit then 1 else 0) :: List.replicate (2 ^ n - 1) 0) sk gmasks
            (fun j => (gnoise j).map fun l => l.map (BitVec.ofInt W)) = some glev ∧
          ∃ g, schemeSwitchFft d (2 ^ n) rg rs (freshGgsw W d (2 ^ n) rg.count) glev ssk = some g ∧
            Selects d n rg sk F (cmuxError W d (2 ^ n) rg S (switchedNoise W d (2 ^ n) rs S E0 Es) F) bit g := by
  obtain ⟨ssk, s1, s2⟩ := ssk_exists hW rs hls hcs hlts sk hsk masks hma noise hno
  refine ⟨ssk, s1, fun bit gmasks gnoise hgm hgn => ?_⟩
  have hpos := Nat.two_pow_pos n
  obtain ⟨glev, g1, g2⟩ := glevEncrypt_spec hW rg hlg hcg (le_of_lt hltg) ((if bit then 1 else 0) :: List.replicate (2 ^ n - 1) 0) (by simp; omega) sk hsk
    gmasks gnoise hgm hgn (List.replicate rg.count (glweZero d (2 ^ n))) (by simp) (fun b hb => by
      rw [List.eq_of_mem_replicate hb]; exact ⟨glweZero_valid d (2 ^ n), by simp [glweZero]⟩)
  rw [bit_cls hpos bit] at g2
  refine ⟨glev, g1, ?_⟩
  obtain ⟨g, h1, h2⟩ := schemeSwitchFft_spec hls hcs hlts sk hsk (key_small hsk hS) ssk s2 _ glev g2 (freshGgsw W d (2 ^ n) rg.count)
    (by simp [freshGgsw]) (fun row hrow => (fresh_ok row hrow).1) (by
      intro j row hrow
      have hmem : row ∈ freshGgsw W d (2 ^ n) rg.count := List.mem_of_getElem? hrow
      rw [freshGgsw] at hmem
      rw [List.eq_of_mem_replicate hmem]
      split
      · intro y hy
        rw [List.eq_of_mem_replicate hy]
        exact ⟨_, glweZero_encAt d (2 ^ n) j⟩
      · intro y hy
        rw [List.eq_of_mem_replicate hy]
        simp [glweZero])
  exact ⟨g, h1, selects_of_ok hlg hcg hltg hsk hS h2⟩

/-- a concrete case meets the hypotheses: two key polynomials of degree 4 -/
example : KeyFor [[1#64, 0#64, 0#64, 1#64], [0#64, 1#64, 1#64, 1#64]] 2 (2 ^ 2) ∧ KeyBound 1 [[1#64, 0#64, 0#64, 1#64], [0#64, 1#64, 1#64, 1#64]] ∧
    NoiseOk (2 ^ 2) 3 (some [1, -3, 0, 2]) ∧ 7 * 6 < 64 ∧ 4 * 3 < 64 := by
  refine ⟨⟨rfl, by simp⟩, by simp [KeyBound], ?_, by decide, by decide⟩
  intro l hl
  obtain rfl := Option.some.inj hl
  exact ⟨rfl, by decide⟩

/-- small example: degree 1, two key polynomials 1 and 1, no noise; stale contents `out` -/
def exSwitch (f : List (List (Glwe (BitVec 8))) → List (Glwe (BitVec 8)) → List (List (Glwe (BitVec 8))) → Option (List (List (Glwe (BitVec 8)))))
    (out : List (List (Glwe (BitVec 8)))) : Option (List (BitVec 8)) :=
  (sskGen 2 1 ⟨3, 2⟩ (freshSsk 8 2 1 2) [[1], [1]] (fun i j => [[BitVec.ofNat 8 (64 * i)], [BitVec.ofNat 8 (128 * j)]]) (fun _ _ => none)).bind fun ssk =>
    (glevEncrypt 1 ⟨3, 2⟩ [glweZero 2 1, glweZero 2 1] [1] [[1], [1]] (fun j => [[BitVec.ofNat 8 (32 * j)], [64]]) (fun _ => none)).bind fun glev =>
      (f out glev ssk).bind fun g => (cmux 2 1 ⟨3, 2⟩ (glweZero 2 1) ⟨[[0x14], [0]], [0x14#8]⟩ ⟨[[0], [0x20]], [0x78#8]⟩ g).bind fun c => glweDecrypt c [[1], [1]]

/-- computed: the selector of 1 picks `d1`, whose decryption is `0x78 - 0x20`, with stale contents too -/
example : exSwitch (schemeSwitch 2 1 ⟨3, 2⟩ ⟨3, 2⟩) (List.replicate 3 [⟨[[9], [9]], [7]⟩, ⟨[[9], [9]], [7]⟩]) = some [0x58#8] := by decide +kernel
example : exSwitch (schemeSwitchFft 2 1 ⟨3, 2⟩ ⟨3, 2⟩) (freshGgsw 8 2 1 2) = some [0x58#8] := by decide +kernel

/-- **C80, violation.** `scheme_switch_fft` adds to whatever its output holds: into an output that holds other
ciphertexts the call succeeds, and the result does not select by the encrypted bit, even without noise. -/
theorem C80_fft_stale_violated : ∃ (sk : List (List (BitVec 8))) (glev : List (Glwe (BitVec 8))) (ssk out g : List (List (Glwe (BitVec 8)))) (d0 d1 c : Glwe (BitVec 8))
    (y : List (BitVec 8)),
    sskGen 1 1 ⟨3, 2⟩ (freshSsk 8 1 1 2) sk (fun _ _ => [[0]]) (fun _ _ => none) = some ssk ∧
    glevEncrypt 1 ⟨3, 2⟩ [glweZero 1 1, glweZero 1 1] [1] sk (fun _ => [[0]]) (fun _ => none) = some glev ∧
    out.length = 2 ∧ (∀ row ∈ out, row.length = 2 ∧ ∀ y ∈ row, y.valid 1 1) ∧
    schemeSwitchFft 1 1 ⟨3, 2⟩ ⟨3, 2⟩ out glev ssk = some g ∧ cmux 1 1 ⟨3, 2⟩ (glweZero 1 1) d0 d1 g = some c ∧
    glweDecrypt d1 sk = some [0x40#8] ∧ glweDecrypt c sk = some y ∧ y ≠ [0x40#8] ∧ decode (y.getD 0 0) 2 ≠ decode 0x40#8 2 := by
  exact ⟨[[1]], [⟨[[0]], [32]⟩, ⟨[[0]], [4]⟩], [[⟨[[0]], [32]⟩, ⟨[[0]], [4]⟩]], [[⟨[[0]], [0x60]⟩, ⟨[[0]], [0]⟩], [⟨[[0]], [0]⟩, ⟨[[0]], [0]⟩]],
    [[⟨[[32]], [96]⟩, ⟨[[4]], [0]⟩], [⟨[[0]], [32]⟩, ⟨[[0]], [4]⟩]], ⟨[[0]], [0]⟩, ⟨[[0x20]], [0x60]⟩, ⟨[[32]], [192]⟩, [160],
    by decide +kernel, by decide +kernel, rfl, by simp [Glwe.valid], by decide +kernel, by decide +kernel, by decide +kernel, by decide +kernel,
    by decide, by decide +kernel⟩

end Spf.Props
