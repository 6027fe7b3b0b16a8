import Verif.Proof.CircuitBootstrap
import Verif.Props.GlevDec
import Verif.Props.Pbs
import Verif.Props.Trace
import Verif.Props.SchemeSwitch
/-!
C83: circuit bootstrapping turns a noisy LWE encryption of a bit into a GGSW ciphertext that selects by that bit. Torus
elements are `BitVec W`, `N = 2^n`, the GLWE key has `d` polynomials; all masks, bounded noises and bounded errors of the
inverse Fourier transform are universally quantified.
-/
namespace Spf.Props
open Spf.Spec Spf.Tfhe

/-- The noise of every GLWE ciphertext after bootstrap, division by `N` and trace, for a binary key: bootstrap key noise
`Eb`, automorphism key noise `Ea`, Fourier errors bounded by `F`; `m` is the dimension of the input. None of it depends on
the noise of the input. -/
def circuitNoise (W d n m : Nat) (rp rt : Radix) (Eb Ea F : Nat) : Nat :=
  (2 ^ n - 1) * (d * (2 ^ n * 2 ^ (W - rt.log * rt.count - 1)) + d * (rt.count * (2 ^ n * (2 ^ (rt.log - 1) * Ea))) + (F + d * (2 ^ n * F))) +
    (2 ^ (n - 1) + d * (2 ^ n * 2 ^ (n - 1))) + m * stepError W d (2 ^ n) rp Eb F

/-- **C83.** Generate bootstrap key, automorphism key and scheme switch key for a binary GLWE key and a binary LWE key, into
fresh memory (all succeed). Then for every LWE ciphertext that decrypts to `bit` in its most significant bit up to `e`, with
`e` and the rounding of the modulus switch (half a unit for every one of
the key, and for the body) below a quarter of the torus, circuit bootstrapping into a fresh output succeeds,
and the output is a selector for `bit`, whose noise does not depend on `e`; if that noise is below half the first gadget
factor, the output also decrypts to `bit` (the constant polynomial). Missing: outputs that are not fresh
(`C83_stale_violated`), a GGSW radix that uses all bits but one (`C83_full_precision_violated`). -/
theorem C83_circuit_bootstrap_partial (W : Nat) (hW : W ≤ 64) (checked : Bool) (n d m v e Eb Ea Es F : Nat) (rp rt rs rc : Radix)
    (hlp : 0 < rp.log) (hcp : 0 < rp.count) (hltp : rp.log * rp.count < W) (hlt : 0 < rt.log) (hct : 0 < rt.count) (hltt : rt.log * rt.count < W)
    (hls : 0 < rs.log) (hcs : 0 < rs.count) (hlts : rs.log * rs.count < W) (hlc : 0 < rc.log) (hcc : 0 < rc.count) (hcc8 : rc.count < 8)
    (hltc : rc.log * rc.count + 1 < W) (hv : ceilLog2 rc.count = some v) (hvn : v + 1 ≤ n) (hnW : n + 1 < W) (hd : 0 < d) (hm : 0 < m)
    (sk : List (List (BitVec W))) (hsk : KeyFor sk d (2 ^ n)) (hbin : ∀ s ∈ sk, ∀ x ∈ s, x = 0 ∨ x = 1) (s : List Bool) (hs : s.length = m)
    (hsmall : e + (s.count true + 1) * 2 ^ (W - (n + 1 - v) - 1) < 2 ^ (W - 2))
    (bmasks : Nat → Nat → Nat → List (List (BitVec W))) (hbm : ∀ h i j, KeyFor (bmasks h i j) d (2 ^ n))
    (bnoise : Nat → Nat → Nat → Option (List Int)) (hbn : ∀ h i j, NoiseOk (2 ^ n) Eb (bnoise h i j))
    (amasks : Nat → Nat → Nat → List (List (BitVec W))) (ham : ∀ h i j, KeyFor (amasks h i j) d (2 ^ n))
    (anoise : Nat → Nat → Nat → Option (List Int)) (han : ∀ h i j, NoiseOk (2 ^ n) Ea (anoise h i j))
    (scratch : List (List (BitVec W))) (hsc : KeyFor scratch d (2 ^ n))
    (smasks : Nat → Nat → List (List (BitVec W))) (hsm : ∀ i j, KeyFor (smasks i j) d (2 ^ n))
    (snoise : Nat → Nat → Option (List Int)) (hsn : ∀ i j, NoiseOk (2 ^ n) Es (snoise i j)) :
    ∃ bsk ak ssk, bskGen m d (2 ^ n) rp (freshBsk W m d (2 ^ n) rp.count) (bitKey W s) sk bmasks
          (fun h i j => (bnoise h i j).map fun l => l.map (BitVec.ofInt W)) = some bsk ∧
      akGen checked (2 ^ n) rt (freshAk W d n rt.count) scratch sk amasks (fun h i j => (anoise h i j).map fun l => l.map (BitVec.ofInt W)) = some ak ∧
      sskGen d (2 ^ n) rs (freshSsk W d (2 ^ n) rs.count) sk smasks (fun i j => (snoise i j).map fun l => l.map (BitVec.ofInt W)) = some ssk ∧
      ∀ (ct : Lwe (BitVec W)) (x : BitVec W) (bit : Bool) (feP : Nat → Glwe (BitVec W)) (feT : Nat → Nat → Glwe (BitVec W)) (junk : Nat → Glwe (BitVec W)),
        lweDecrypt m (bitKey W s) ct = some x → Near e x (BitVec.ofNat W ((if bit then 1 else 0) * 2 ^ (W - 1))) →
        (∀ i, FftErr d (2 ^ n) F (feP i)) → (∀ h i, FftErr d (2 ^ n) F (feT h i)) → (∀ i, (junk i).valid d (2 ^ n)) →
        ∃ g, circuitBootstrap m d (2 ^ n) rp rt rs rc feP feT junk (freshGgsw W d (2 ^ n) rc.count) ct bsk ak ssk = some g ∧
          Selects d n rc sk F (cmuxError W d (2 ^ n) rc 1 (switchedNoise W d (2 ^ n) rs 1 (circuitNoise W d n m rp rt Eb Ea F) Es) F) bit g ∧
          (switchedNoise W d (2 ^ n) rs 1 (circuitNoise W d n m rp rt Eb Ea F) Es < 2 ^ (W - rc.log - 1) →
            ggswDecrypt d rc g sk = some ((if bit then 1 else 0) :: List.replicate (2 ^ n - 1) 0)) := by
  have hval : rp.valid W = true := by
    have := Nat.mul_comm rp.log rp.count
    simp only [Radix.valid, Bool.and_eq_true, decide_eq_true_eq]; omega
  have hvalt : rt.valid W = true := by
    have := Nat.mul_comm rt.log rt.count
    simp only [Radix.valid, Bool.and_eq_true, decide_eq_true_eq]; omega
  have hkb : KeyBound 1 sk := by
    intro p hp x hx
    rcases hbin p hp x hx with h | h
    · rw [h]; simp
    · rw [h]
      have h1 : (1 : BitVec W) = BitVec.ofNat W 1 := rfl
      have h2 : (2 : Nat) ^ 2 ≤ 2 ^ W := Nat.pow_le_pow_right (by decide) (by omega)
      have h3 : (BitVec.ofNat W 1).toNat = 1 := by rw [BitVec.toNat_ofNat]; exact Nat.mod_eq_of_lt (by omega)
      rw [h1, BitVec.toInt_eq_toNat_of_lt (by omega), h3]; decide
  have hS := key_small hsk hkb
  obtain ⟨bsk, k1, k2⟩ := bskRows_spec (E := Eb) hW rp hlp hcp hltp sk hsk bmasks hbm bnoise hbn 0 s
  rw [hs] at k1
  obtain ⟨ak, a1, a2, a3⟩ := akLoop_spec (checked := checked) hW rt hlt (le_of_lt hltt) sk hsk (fun _ => hbin) amasks anoise ham han 0 scratch (freshAk W d n rt.count)
    (by simp [freshAk]) hsc (by
      intro buf hbuf
      rw [freshAk] at hbuf
      rw [List.eq_of_mem_replicate hbuf]
      exact freshKsk_ok)
  have hakl : ak.length = n := by rw [a2]; simp [freshAk]
  obtain ⟨ssk, s1, s2⟩ := ssk_exists hW rs hls hcs hlts sk hsk smasks hsm snoise hsn
  refine ⟨bsk, ak, ssk, ?_, by rw [akGen, log2_pow, if_pos ⟨hvalt, by simp [freshAk]⟩]; exact a1, s1, ?_⟩
  · rw [bskGen, if_pos ⟨by omega, isPow2_iff.mpr ⟨n, rfl⟩, by omega, hval, by simp [freshBsk], hsk.1, by simp [bitKey, hs]⟩]
    exact k1
  intro ct x bit feP feT junk hdec hnear hfp hft hj
  have hcta : ct.a.length = m := by
    by_contra hne
    rw [lweDecrypt, if_neg (by tauto)] at hdec
    simp at hdec
  rw [lweDecrypt, if_pos ⟨by omega, hcta⟩] at hdec
  obtain rfl := Option.some.inj hdec
  obtain ⟨lo, y, o1, o2, o3, o4, o5⟩ := hiToLo_spec (F := F) hlp hcp hltp hd hm hcc8 hv hltc hvn hnW sk hsk hS s hs bsk k2 feP hfp ct hcta bit hnear hsmall
  have hcn : rc.count ≤ 2 ^ n := by
    have h1 := ceilLog2_lt hv (show rc.count - 1 < rc.count by omega)
    have h2 : 2 ^ v ≤ 2 ^ n := Nat.pow_le_pow_right (by decide) (by omega)
    omega
  obtain ⟨glev, g1, g2⟩ := modSwitchTraceRotate_spec (F := F) hlt hct hltt (by omega) (by omega) hlc hltc hcn sk hsk hS feT hft junk hj ak hakl
    (fun t h => by have := a3 t h; rwa [Nat.zero_add] at this) bit lo o2 y o3 o4 o5
  have hb : cbsBound W d n rt 1 Ea F (m * cmuxBound W d (2 ^ n) rp 1 Eb F) = circuitNoise W d n m rp rt Eb Ea F := by
    rw [cbsBound, circuitNoise, stepError_eq, glweKsBound, Nat.one_mul, Nat.mul_one, Nat.mul_one]
  rw [hb] at g2
  obtain ⟨g, h1, h2⟩ := schemeSwitchFft_spec hls hcs hlts sk hsk hS ssk s2 _ glev g2 (freshGgsw W d (2 ^ n) rc.count)
    (by simp [freshGgsw]) (fun row hrow => (fresh_ok row hrow).1) (by
      intro j row hrow
      have hmem : row ∈ freshGgsw W d (2 ^ n) rc.count := List.mem_of_getElem? hrow
      rw [freshGgsw] at hmem
      rw [List.eq_of_mem_replicate hmem]
      split
      · intro y hy
        rw [List.eq_of_mem_replicate hy]
        exact ⟨_, glweZero_encAt d (2 ^ n) j⟩
      · intro y hy
        rw [List.eq_of_mem_replicate hy]
        simp [glweZero])
  exact ⟨g, by rw [circuitBootstrap, o1]; simp only [g1]; exact h1, selects_of_ok hlc hcc (by omega) hsk hkb h2, fun hsw => ggswDecrypt_bit hlc hcc (by omega) (by
    have := Nat.le_mul_of_pos_right rc.log hcc; omega) hsw hsk h2⟩

/-- the parameters of the library (`DEFAULT_128` of parasol_runtime/src/params.rs: 64-bit torus, LWE dimension 637, degree
2048, GGSW radix of log 4 and count 4) meet the conditions for every LWE key with at most 380 ones, and input noise 2^60 -/
example : 2 ^ 60 + (380 + 1) * 2 ^ (64 - (11 + 1 - 2) - 1) < 2 ^ (64 - 2) ∧ ceilLog2 4 = some 2 ∧ 2 + 1 ≤ 11 ∧ 11 + 1 < 64 ∧ 4 * 4 + 1 < 64 ∧
    KeyFor [[1#64, 0#64, 0#64, 1#64]] 1 (2 ^ 2) ∧ (∀ s ∈ [[1#64, 0#64, 0#64, 1#64]], ∀ x ∈ s, x = 0 ∨ x = 1) := by
  refine ⟨by decide, by decide, by decide, by decide, by decide, ⟨rfl, by simp⟩, by simp⟩

/-- a circuit bootstrap of `bit` in degree 4, LWE dimension 1, W = 9, no noise in the keys, into `out`; the noise of the input is
13; the result is used as a selector between a ciphertext of 0 and one of `0x40` -/
def exCircuit (bit : Bool) (out : List (List (Glwe (BitVec 9)))) : Option (List (BitVec 9)) :=
  (bskGen 1 1 4 ⟨4, 2⟩ (freshBsk 9 1 1 4 2) [1] [[0, 1, 0, 0]] (fun _ _ _ => [[0, 0, 0, 0]]) (fun _ _ _ => none)).bind fun bsk =>
  (akGen true 4 ⟨4, 2⟩ (freshAk 9 1 2 2) [[0, 0, 0, 0]] [[0, 1, 0, 0]] (fun _ _ _ => [[0, 0, 0, 0]]) (fun _ _ _ => none)).bind fun ak =>
  (sskGen 1 4 ⟨4, 2⟩ (freshSsk 9 1 4 2) [[0, 1, 0, 0]] (fun _ _ => [[0, 0, 0, 0]]) (fun _ _ => none)).bind fun ssk =>
  (circuitBootstrap 1 1 4 ⟨4, 2⟩ ⟨4, 2⟩ ⟨4, 2⟩ ⟨3, 2⟩ (fun _ => glweZero 1 4) (fun _ _ => glweZero 1 4) (fun _ => glweZero 1 4) out
    ⟨[97], 97 + 13 + (if bit then 256 else 0)⟩ bsk ak ssk).bind fun g =>
  (cmux 1 4 ⟨3, 2⟩ (glweZero 1 4) ⟨[[0, 0, 0, 0]], [0, 0, 0, 0]⟩ ⟨[[0x40, 0, 0, 0]], [0x40, 0x40, 0, 0]⟩ g).bind fun c => glweDecrypt c [[0, 1, 0, 0]]

/-- computed: the selector of 1 picks the second ciphertext, the selector of 0 the first -/
example : exCircuit true (freshGgsw 9 1 4 2) = some [0x40, 0, 0, 0] ∧ exCircuit false (freshGgsw 9 1 4 2) = some [0, 0, 0, 0] := by decide +kernel

/-- **C83, violation.** Circuit bootstrapping into an output that already holds a ciphertext succeeds, and the result does not
select by the bit: with the same input and keys, a fresh output selects `0x40`, a used one gives something that does not even
decode to it (the last step is `scheme_switch_fft`, see `C80_fft_stale_violated`). -/
theorem C83_stale_violated : ∃ (out : List (List (Glwe (BitVec 9)))) (y : List (BitVec 9)),
    out.length = 2 ∧ (∀ row ∈ out, row.length = 2 ∧ ∀ y ∈ row, y.valid 1 4) ∧ exCircuit true (freshGgsw 9 1 4 2) = some [0x40, 0, 0, 0] ∧
    exCircuit true out = some y ∧ decode (y.getD 1 0) 3 ≠ decode 0#9 3 :=
  ⟨[[⟨[[0, 0, 0, 0]], [0, 0x40, 0, 0]⟩, ⟨[[0, 0, 0, 0]], [0, 0, 0, 0]⟩], [⟨[[0, 0, 0, 0]], [0, 0, 0, 0]⟩, ⟨[[0, 0, 0, 0]], [0, 0, 0, 0]⟩]],
    [0x40, 0x40, 0, 0], by decide, by simp [Glwe.valid], by decide +kernel, by decide +kernel, by decide +kernel⟩

theorem cbsLoop_none {W d N : Nat} {rt rc : Radix} {fe : Nat → Nat → Glwe (BitVec W)} {junk : Nat → Glwe (BitVec W)} {ak : List (List (List (Glwe (BitVec W))))}
    : ∀ (c i : Nat) (rot : Glwe (BitVec W)), W ≤ rc.log * (i + c + 1) + 1 → cbsTraceLoop d N rt rc fe junk ak (c + 1) i rot = none
  | 0, i, rot, h => by rw [cbsTraceLoop, encode, if_neg (by rw [show i + 0 + 1 = i + 1 by omega] at h; omega)]
  | c + 1, i, rot, h => by
    rw [cbsTraceLoop]
    cases encode 1#W (rc.log * (i + 1) + 1) with
    | none => rfl
    | some one =>
      simp only
      split
      · cases glweMonomial (⟨rot.a, rot.b.modify i (· + one)⟩ : Glwe (BitVec W)) (-(i : Int)) with
        | none => rfl
        | some perm =>
          simp only
          cases glweShrRound (Nat.log2 N) perm with
          | none => rfl
          | some sh =>
            simp only
            cases trace d N rt (fe i) (junk i) sh ak with
            | none => rfl
            | some y =>
              simp only
              rw [cbsLoop_none c (i + 1) _ (by rw [show i + 1 + c + 1 = i + (c + 1) + 1 by omega]; exact h)]
      · rfl

/-- **C83, violation.** A radix for the GGSW output that uses all bits but one is accepted by `RadixDecomposition` (and by
every other operation, C56), but circuit bootstrapping panics on every input. -/
theorem C83_full_precision_violated (W m d N : Nat) (rp rt rs rc : Radix) (hc : 0 < rc.count) (h : rc.log * rc.count = W - 1) (hW : 0 < W)
    (feP : Nat → Glwe (BitVec W)) (feT : Nat → Nat → Glwe (BitVec W)) (junk : Nat → Glwe (BitVec W)) (out : List (List (Glwe (BitVec W)))) (ct : Lwe (BitVec W))
    (bsk ak : List (List (List (Glwe (BitVec W))))) (ssk : List (List (Glwe (BitVec W)))) :
    circuitBootstrap m d N rp rt rs rc feP feT junk out ct bsk ak ssk = none := by
  rw [circuitBootstrap]
  cases hiToLo m d N rp rc feP ct bsk with
  | none => rfl
  | some lo =>
    simp only [modSwitchTraceRotate]
    obtain ⟨c, hc'⟩ : ∃ c, rc.count = c + 1 := ⟨rc.count - 1, by omega⟩
    rw [hc', cbsLoop_none c 0 lo (by rw [Nat.zero_add, ← hc', h]; omega)]

/-- such a radix is valid -/
example : Radix.valid 64 ⟨9, 7⟩ = true ∧ 9 * 7 = 64 - 1 ∧ 7 < 8 := by decide

end Spf.Props
