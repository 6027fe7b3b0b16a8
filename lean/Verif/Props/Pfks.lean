import Verif.Proof.PfksCbs
import Verif.Props.Pbs
import Verif.Props.SchemeSwitch
/-!
C84: private functional keyswitching applies a secret linear map to the messages of LWE ciphertexts. C85: circuit bootstrapping
through it. Torus elements are `BitVec W`; all masks, bounded noises and bounded errors of the inverse Fourier transform are
universally quantified.
-/
namespace Spf.Props
open Spf.Spec Spf.Tfhe

/-- a freshly allocated key for `p` inputs of dimension `m` -/
def freshPfk (W m k N p count : Nat) : List (List (Glwe (BitVec W))) := List.replicate (p * (m + 1)) (List.replicate count (glweZero k N))

/-- The error of a private functional keyswitch of `p` ciphertexts under the LWE key `s` of dimension `m`, for a map with
Lipschitz constant `R`: the rounding of the decomposition once for the absolute value of every key element and for the body, and
the noise `E` of every key ciphertext times half the radix. -/
def pfksError (W m p : Nat) (r : Radix) (R E : Nat) (s : List (BitVec W)) : Nat :=
  R * (((s.map fun x => x.toInt.natAbs).sum + 1) * 2 ^ (W - r.log * r.count - 1)) + p * ((m + 1) * (r.count * (2 ^ (r.log - 1) * E)))

theorem dec_ph {W m : Nat} {s : List (BitVec W)} : ∀ {inputs : List (Lwe (BitVec W))} {xs : List (BitVec W)},
    List.Forall₂ (fun ct x => lweDecrypt m s ct = some x) inputs xs → xs = inputs.map (ph s) ∧ (∀ x ∈ inputs, x.a.length = m)
  | [], _, .nil => ⟨rfl, by simp⟩
  | ct :: inputs, x :: xs, .cons h h' => by
    obtain ⟨i1, i2⟩ := dec_ph h'
    have ha : ct.a.length = m := by
      by_contra hne
      rw [lweDecrypt, if_neg (by tauto)] at h
      simp at h
    refine ⟨?_, ?_⟩
    · have hm : m ≠ 0 := by
        intro hm
        rw [lweDecrypt, if_neg (by tauto)] at h
        simp at h
      rw [lweDecrypt, if_pos ⟨hm, ha⟩] at h
      obtain rfl := Option.some.inj h
      rw [List.map_cons, ← i1]; rfl
    · intro y hy
      rcases List.mem_cons.1 hy with rfl | hy
      · exact ha
      · exact i2 y hy

/-- **C84, any output.** Generate a key for a map that respects addition and is `R`-Lipschitz, into fresh memory (it succeeds).
Then for all ciphertexts that decrypt to `xs` and every output that decrypts to `m0`, the keyswitch succeeds, and the output
decrypts to the image of `xs` minus `m0`, up to `pfksError`. -/
theorem C84_any_output (W : Nat) (hW : 1 < W) (n k m p R E : Nat) (r : Radix) (hl : 0 < r.log) (hc : 0 < r.count) (hlt : r.log * r.count < W)
    (hm : 0 < m) (hk : 0 < k) (hp : 0 < p) (map : List (BitVec W) → List (BitVec W) → Option (List (BitVec W)))
    (hf : Morphism (2 ^ n) p R (map (List.replicate (2 ^ n) 0))) (s : List (BitVec W)) (hs : s.length = m) (sk : List (List (BitVec W)))
    (hsk : KeyFor sk k (2 ^ n)) (masks : Nat → Nat → Nat → List (List (BitVec W))) (hma : ∀ h i j, KeyFor (masks h i j) k (2 ^ n))
    (noise : Nat → Nat → Nat → Option (List Int)) (hno : ∀ h i j, NoiseOk (2 ^ n) E (noise h i j)) :
    ∃ key, pfkGen m k (2 ^ n) p r map (freshPfk W m k (2 ^ n) p r.count) s sk masks (fun h i j => (noise h i j).map fun l => l.map (BitVec.ofInt W)) = some key ∧
      ∀ (inputs : List (Lwe (BitVec W))) (xs : List (BitVec W)) (out : Glwe (BitVec W)) (m0 : List (BitVec W)),
        List.Forall₂ (fun ct x => lweDecrypt m s ct = some x) inputs xs → inputs.length = p → out.valid k (2 ^ n) → glweDecrypt out sk = some m0 →
        ∃ c y q, pfks m k (2 ^ n) p r out inputs key = some c ∧ c.valid k (2 ^ n) ∧ map (List.replicate (2 ^ n) 0) xs = some q ∧
          glweDecrypt c sk = some y ∧ NearPoly (pfksError W m p r R E s) y (List.zipWith (· - ·) q m0) := by
  obtain ⟨key, k1, k2⟩ := pfkGen_fresh hl hc hlt hm hk hp map hf s hs sk hsk masks noise hma hno
  refine ⟨key, k1, fun inputs xs out m0 hdec hlen hout hm0 => ?_⟩
  obtain ⟨hxs, hina⟩ := dec_ph hdec
  obtain ⟨c, q, c1, c2, c3, c4, c5⟩ := pfks_spec hl hc hlt hm hk hp hW _ hf s hs sk key k2 inputs hlen hina out hout
  obtain ⟨y, y1, y2, y3⟩ := decrypt_phase (isPow2_iff.mpr ⟨n, rfl⟩) c sk c2 hsk.2
  obtain ⟨m', d1, d2, d3⟩ := decrypt_phase (isPow2_iff.mpr ⟨n, rfl⟩) out sk hout hsk.2
  rw [hm0] at d1
  cases d1
  refine ⟨c, y, q, c1, c2, by rw [hxs]; exact c3, y1, ?_⟩
  apply nearPoly_of_small y2 (by simp [c4, d2])
  rw [y3, cls_zipWith_sub _ _ _ (by omega), d3]
  exact c5

/-- **C84** (`_partial`: into a freshly allocated output; see `C84_stale_violated`). The output decrypts to the image of the
messages, up to `pfksError`. -/
theorem C84_private_keyswitch_partial (W : Nat) (hW : 1 < W) (n k m p R E : Nat) (r : Radix) (hl : 0 < r.log) (hc : 0 < r.count) (hlt : r.log * r.count < W)
    (hm : 0 < m) (hk : 0 < k) (hp : 0 < p) (map : List (BitVec W) → List (BitVec W) → Option (List (BitVec W)))
    (hf : Morphism (2 ^ n) p R (map (List.replicate (2 ^ n) 0))) (s : List (BitVec W)) (hs : s.length = m) (sk : List (List (BitVec W)))
    (hsk : KeyFor sk k (2 ^ n)) (masks : Nat → Nat → Nat → List (List (BitVec W))) (hma : ∀ h i j, KeyFor (masks h i j) k (2 ^ n))
    (noise : Nat → Nat → Nat → Option (List Int)) (hno : ∀ h i j, NoiseOk (2 ^ n) E (noise h i j)) :
    ∃ key, pfkGen m k (2 ^ n) p r map (freshPfk W m k (2 ^ n) p r.count) s sk masks (fun h i j => (noise h i j).map fun l => l.map (BitVec.ofInt W)) = some key ∧
      ∀ (inputs : List (Lwe (BitVec W))) (xs : List (BitVec W)), List.Forall₂ (fun ct x => lweDecrypt m s ct = some x) inputs xs → inputs.length = p →
        ∃ c y q, pfks m k (2 ^ n) p r (glweZero k (2 ^ n)) inputs key = some c ∧ c.valid k (2 ^ n) ∧ map (List.replicate (2 ^ n) 0) xs = some q ∧
          glweDecrypt c sk = some y ∧ NearPoly (pfksError W m p r R E s) y q := by
  obtain ⟨key, k1, k2⟩ := C84_any_output W hW n k m p R E r hl hc hlt hm hk hp map hf s hs sk hsk masks hma noise hno
  refine ⟨key, k1, fun inputs xs h1 h2 => ?_⟩
  have hN : isPow2 (2 ^ n) = true := isPow2_iff.mpr ⟨n, rfl⟩
  obtain ⟨m0, d1, d2, d3⟩ := decrypt_phase hN (glweZero k (2 ^ n)) sk (glweZero_valid k _) hsk.2
  have hm0 : m0 = List.replicate (2 ^ n) 0 := by
    apply cls_inj _ _ _ d2 (by simp)
    rw [d3, glweZero_phase, cls_replicate_zero]
  subst hm0
  obtain ⟨c, y, q, c1, c2, c3, c4, c5⟩ := k2 inputs xs _ _ h1 h2 (glweZero_valid k _) d1
  refine ⟨c, y, q, c1, c2, c3, c4, ?_⟩
  have hxl : xs.length = p := by rw [← h1.length_eq, h2]
  obtain ⟨q', e1, e2⟩ := hf.total xs hxl
  rw [c3] at e1
  cases e1
  have : List.zipWith (· - ·) q (List.replicate (2 ^ n) 0) = q := by
    apply List.ext_getElem
    · simp [e2]
    · intro i h1 h2; simp
  rwa [this] at c5

/-- The map of the unit test (sunscreen_tfhe/src/ops/keyswitch/private_functional_keyswitch.rs:303-307): input `i` goes to
coefficient `i`. -/
def packMap {W : Nat} (poly x : List (BitVec W)) : Option (List (BitVec W)) :=
  if x.length ≤ poly.length then some (x ++ poly.drop x.length) else none

theorem pack_morphism {W N p : Nat} (h : p ≤ N) : Morphism (W := W) N p 1 (packMap (List.replicate N 0)) := by
  have hval : ∀ x : List (BitVec W), x.length = p → packMap (List.replicate N 0) x = some (x ++ List.replicate (N - p) 0) := by
    intro x hx
    rw [packMap, if_pos (by simp; omega), List.drop_replicate, hx]
  refine ⟨fun x hx => ⟨_, hval x hx, by simp; omega⟩, ?_, ?_⟩
  · intro x x' y y' hx hx' h1 h2
    rw [hval x hx] at h1
    rw [hval x' hx'] at h2
    cases h1
    cases h2
    rw [hval _ (by simp; omega), List.zipWith_append (by omega), List.zipWith_replicate]
    simp
  · intro B x x' y y' hx hn h1 h2
    rw [hval x hx] at h1
    rw [hval x' (by rw [← hn.length_eq, hx])] at h2
    cases h1
    cases h2
    rw [Nat.one_mul]
    exact List.rel_append hn (List.forall₂_same.2 fun a _ => Tfhe.Near.mono (Near.refl a) (Nat.zero_le _))

/-- **C84, packing.** With the map that puts input `i` into coefficient `i`: if every input holds a `bits`-bit message with error
at most `e`, and `e` and the keyswitch error stay below half an encoding step, decoding coefficient `i` of the packed
ciphertext gives message `i`. -/
theorem C84_pack_partial (W : Nat) (n k m p bits e E : Nat) (r : Radix) (hl : 0 < r.log) (hc : 0 < r.count) (hlt : r.log * r.count < W)
    (hm : 0 < m) (hk : 0 < k) (hp : 0 < p) (hpn : p ≤ 2 ^ n) (hb0 : 0 < bits) (hb : bits < W) (hb32 : bits < 32)
    (s : List (BitVec W)) (hs : s.length = m) (sk : List (List (BitVec W)))
    (hsk : KeyFor sk k (2 ^ n)) (masks : Nat → Nat → Nat → List (List (BitVec W))) (hma : ∀ h i j, KeyFor (masks h i j) k (2 ^ n))
    (noise : Nat → Nat → Nat → Option (List Int)) (hno : ∀ h i j, NoiseOk (2 ^ n) E (noise h i j))
    (hsmall : pfksError W m p r 1 E s + e < 2 ^ (W - bits - 1)) :
    ∃ key, pfkGen m k (2 ^ n) p r packMap (freshPfk W m k (2 ^ n) p r.count) s sk masks (fun h i j => (noise h i j).map fun l => l.map (BitVec.ofInt W)) = some key ∧
      ∀ (inputs : List (Lwe (BitVec W))) (xs : List (BitVec W)) (ms : List Nat), List.Forall₂ (fun ct x => lweDecrypt m s ct = some x) inputs xs →
        List.Forall₂ (fun x v => v < 2 ^ bits ∧ Near e x (BitVec.ofNat W (v * 2 ^ (W - bits)))) xs ms → inputs.length = p →
        ∃ c y, pfks m k (2 ^ n) p r (glweZero k (2 ^ n)) inputs key = some c ∧ glweDecrypt c sk = some y ∧
          ∀ i v, ms[i]? = some v → decode (y.getD i 0) bits = some (BitVec.ofNat W v) := by
  obtain ⟨key, k1, k2⟩ := C84_private_keyswitch_partial W (by omega) n k m p 1 E r hl hc hlt hm hk hp packMap (pack_morphism hpn) s hs sk hsk masks hma noise hno
  refine ⟨key, k1, fun inputs xs ms h1 h2 h3 => ?_⟩
  obtain ⟨c, y, q, c1, c2, c3, c4, c5⟩ := k2 inputs xs h1 h3
  refine ⟨c, y, c1, c4, fun i v hv => ?_⟩
  have hxl : xs.length = p := by rw [← h1.length_eq, h3]
  rw [packMap, if_pos (by simp; omega)] at c3
  obtain rfl := Option.some.inj c3
  have hi : i < ms.length := by
    by_contra hn
    rw [List.getElem?_eq_none (by omega)] at hv
    simp at hv
  rw [List.getElem?_eq_getElem hi] at hv
  obtain rfl := Option.some.inj hv
  have hix : i < xs.length := by rw [h2.length_eq]; exact hi
  obtain ⟨a1, a2⟩ := (List.forall₂_iff_get.1 h2).2 i hix hi
  have hiy : i < y.length := by rw [c5.length_eq]; simp; omega
  have a3 := (List.forall₂_iff_get.1 c5).2 i hiy (by simp; omega)
  simp only [List.get_eq_getElem] at a1 a2 a3
  rw [List.getElem_append_left hix] at a3
  apply near_decode hb0 hb hb32 a1 hsmall
  have hy : y.getD i 0 = y[i] := by simp [List.getD, hiy]
  rw [hy]
  exact Tfhe.Near.trans a3 a2

/-- a concrete case meets the hypotheses: three inputs, a 64-bit torus, noise up to 1000 in the keys, `2^50` in the input -/
example : KeyFor [[1#64, 0#64, 0#64, 1#64]] 1 (2 ^ 2) ∧ NoiseOk (2 ^ 2) 1000 (some [1, -1000, 0, 2]) ∧
    pfksError 64 2 3 ⟨8, 3⟩ 1 1000 [1#64, 0#64] + 2 ^ 50 < 2 ^ (64 - 4 - 1) ∧ Morphism (W := 64) (2 ^ 2) 3 1 (packMap (List.replicate (2 ^ 2) 0)) := by
  refine ⟨⟨rfl, by simp⟩, ?_, ?_, pack_morphism (by decide)⟩
  · intro l hl
    obtain rfl := Option.some.inj hl
    exact ⟨rfl, by decide⟩
  · simp [pfksError]

/-- a keyswitch of two ciphertexts of degree 4, dimension 2, W = 12, key noise 1, onto `out`; decrypted -/
def exPfks (out : Glwe (BitVec 12)) : Option (List (BitVec 12)) :=
  (pfkGen 2 1 4 2 ⟨4, 2⟩ packMap (freshPfk 12 2 1 4 2 2) [1, 0] [[0, 1, 0, 1]] (fun h i j => [[BitVec.ofNat 12 (h + 3 * i), 5, BitVec.ofNat 12 j, 7]])
    (fun _ _ _ => some [1, 0, -1, 1])).bind fun key =>
  (pfks 2 1 4 2 ⟨4, 2⟩ out [⟨[0x123, 0x456], 0x123 + 0x700⟩, ⟨[0x9, 0x80], 0x9 + 0x200⟩] key).bind fun c => glweDecrypt c [[0, 1, 0, 1]]

/-- computed: the messages 7 and 2 arrive in coefficients 0 and 1 -/
example : (exPfks (glweZero 1 4)).map (fun y => y.map fun x => decode x 4) = some [some 7, some 2, some 0, some 0] := by decide +kernel

/-- **C84, violation.** The output is not cleared: keyswitching onto an output that holds a ciphertext of the message 1 subtracts
it, and the result decodes to 6 and 1 instead of 7 and 2. -/
theorem C84_stale_violated : (exPfks (glweZero 1 4)).map (fun y => y.map fun x => decode x 4) = some [some 7, some 2, some 0, some 0] ∧
    (exPfks ⟨[[0, 0, 0, 0]], [0x100, 0x100, 0, 0]⟩).map (fun y => y.map fun x => decode x 4) = some [some 6, some 1, some 0, some 0] := by
  constructor <;> decide +kernel

/-! ### C85 -/

/-- freshly allocated keys for circuit bootstrapping -/
def freshCbsk (W m k N count : Nat) : List (List (List (Glwe (BitVec W)))) := List.replicate (k + 1) (freshPfk W m k N 1 count)

/-- The noise of every GLWE ciphertext of the GGSW output, for binary keys: bootstrap key noise `Eb` in GLWE dimension `d2`, `2^n2`,
keyswitch key noise `Ef`, `wt` ones in the GLWE key of the bootstrap. -/
def pfksCircuitNoise (W d2 n2 m : Nat) (rp rf : Radix) (Eb Ef F wt : Nat) : Nat :=
  (wt + 1) * 2 ^ (W - rf.log * rf.count - 1) + (d2 * 2 ^ n2 + 1) * (rf.count * (2 ^ (rf.log - 1) * Ef)) + m * stepError W d2 (2 ^ n2) rp Eb F

theorem binary_bound {W : Nat} (hW : 1 < W) {x : BitVec W} (h : x = 0 ∨ x = 1) : x.toInt.natAbs ≤ 1 := by
  rcases h with rfl | rfl
  · simp
  · have h1 : (1 : BitVec W) = BitVec.ofNat W 1 := rfl
    have h2 : (2 : Nat) ^ 2 ≤ 2 ^ W := Nat.pow_le_pow_right (by decide) (by omega)
    have h3 : (BitVec.ofNat W 1).toNat = 1 := by rw [BitVec.toNat_ofNat]; exact Nat.mod_eq_of_lt (by omega)
    rw [h1, BitVec.toInt_eq_toNat_of_lt (by omega), h3]; decide

theorem binary_weight {W : Nat} (hW : 1 < W) : ∀ s : List (BitVec W), (∀ x ∈ s, x = 0 ∨ x = 1) → weight s = s.count 1
  | [], _ => rfl
  | x :: s, h => by
    have ih := binary_weight hW s fun y hy => h y (by simp [hy])
    rw [weight] at ih
    rw [weight, List.map_cons, List.sum_cons, ih, List.count_cons]
    have hne : (0 : BitVec W) ≠ 1 := by
      intro h0
      have := congrArg BitVec.toNat h0
      have h1 : (1 : BitVec W) = BitVec.ofNat W 1 := rfl
      rw [h1, BitVec.toNat_ofNat, Nat.mod_eq_of_lt (Nat.one_lt_two_pow (by omega))] at this
      simp at this
    rcases h x (by simp) with rfl | rfl
    · have hbne : ((0 : BitVec W) == 1) = false := by simpa using hne
      rw [hbne]; simp
    · have h2 : (2 : Nat) ^ 2 ≤ 2 ^ W := Nat.pow_le_pow_right (by decide) (by omega)
      have h1 : (1 : BitVec W) = BitVec.ofNat W 1 := rfl
      have h3 : (BitVec.ofNat W 1).toNat = 1 := by rw [BitVec.toNat_ofNat]; exact Nat.mod_eq_of_lt (by omega)
      have : (1 : BitVec W).toInt.natAbs = 1 := by rw [h1, BitVec.toInt_eq_toNat_of_lt (by omega), h3]; rfl
      rw [this]; simp [Nat.add_comm]

/-- **C85.** Circuit bootstrapping through private functional keyswitching. Take a binary LWE key `s`, a binary GLWE key `sk2` for
the bootstrap and a binary GLWE key `sk` for the output, of any dimensions; generate the bootstrap key and the keyswitch keys
into fresh memory (both succeed). Then for every LWE ciphertext that decrypts to `bit` in its most significant bit up to `e`,
with `e` and the rounding of the modulus switch below a quarter of the torus, circuit bootstrapping into a fresh output
succeeds, and the output selects by `bit`, with noise that does not depend on `e`. Missing: used outputs (`C85_stale_violated`). -/
theorem C85_circuit_bootstrap_partial (W : Nat) (hW : W ≤ 64) (n2 d2 n d m v e Eb Ef F : Nat) (rp rc rf : Radix)
    (hlp : 0 < rp.log) (hcp : 0 < rp.count) (hltp : rp.log * rp.count < W) (hlf : 0 < rf.log) (hcf : 0 < rf.count) (hltf : rf.log * rf.count < W)
    (hlc : 0 < rc.log) (hcc : 0 < rc.count) (hcc8 : rc.count < 8) (hltc : rc.log * rc.count + 1 < W) (hv : ceilLog2 rc.count = some v)
    (hvn : v + 1 ≤ n2) (hnW : n2 + 1 < W) (hd2 : 0 < d2) (hd : 0 < d) (hm : 0 < m)
    (sk2 : List (List (BitVec W))) (hsk2 : KeyFor sk2 d2 (2 ^ n2)) (hbin2 : ∀ s ∈ sk2, ∀ x ∈ s, x = 0 ∨ x = 1)
    (sk : List (List (BitVec W))) (hsk : KeyFor sk d (2 ^ n)) (hbin : ∀ s ∈ sk, ∀ x ∈ s, x = 0 ∨ x = 1) (s : List Bool) (hs : s.length = m)
    (hsmall : e + (s.count true + 1) * 2 ^ (W - (n2 + 1 - v) - 1) < 2 ^ (W - 2))
    (bmasks : Nat → Nat → Nat → List (List (BitVec W))) (hbm : ∀ h i j, KeyFor (bmasks h i j) d2 (2 ^ n2))
    (bnoise : Nat → Nat → Nat → Option (List Int)) (hbn : ∀ h i j, NoiseOk (2 ^ n2) Eb (bnoise h i j))
    (fmasks : Nat → Nat → Nat → List (List (BitVec W))) (hfm : ∀ h i j, KeyFor (fmasks h i j) d (2 ^ n))
    (fnoise : Nat → Nat → Nat → Option (List Int)) (hfn : ∀ h i j, NoiseOk (2 ^ n) Ef (fnoise h i j)) :
    ∃ bsk cbsk, bskGen m d2 (2 ^ n2) rp (freshBsk W m d2 (2 ^ n2) rp.count) (bitKey W s) sk2 bmasks
          (fun h i j => (bnoise h i j).map fun l => l.map (BitVec.ofInt W)) = some bsk ∧
      cbskGen (d2 * 2 ^ n2) d (2 ^ n) rf (freshCbsk W (d2 * 2 ^ n2) d (2 ^ n) rf.count) (toLweKey sk2) sk fmasks
          (fun h i j => (fnoise h i j).map fun l => l.map (BitVec.ofInt W)) = some cbsk ∧
      ∀ (ct : Lwe (BitVec W)) (x : BitVec W) (bit : Bool) (fe : Nat → Glwe (BitVec W)),
        lweDecrypt m (bitKey W s) ct = some x → Near e x (BitVec.ofNat W ((if bit then 1 else 0) * 2 ^ (W - 1))) → (∀ i, FftErr d2 (2 ^ n2) F (fe i)) →
        ∃ g, cbsPfks m d2 (2 ^ n2) d (2 ^ n) rp rc rf fe (freshGgsw W d (2 ^ n) rc.count) ct bsk cbsk = some g ∧
          ∀ F', Selects d n rc sk F' (cmuxError W d (2 ^ n) rc 1 (pfksCircuitNoise W d2 n2 m rp rf Eb Ef F ((toLweKey sk2).count 1)) F') bit g := by
  have hW1 : 1 < W := by omega
  have hval : rp.valid W = true := by
    have := Nat.mul_comm rp.log rp.count
    simp only [Radix.valid, Bool.and_eq_true, decide_eq_true_eq]; omega
  have hkb2 : KeyBound 1 sk2 := fun p hp x hx => binary_bound hW1 (hbin2 p hp x hx)
  have hkb : KeyBound 1 sk := fun p hp x hx => binary_bound hW1 (hbin p hp x hx)
  have hS2 := key_small hsk2 hkb2
  have hflat : ∀ (l : List (List (BitVec W))), (∀ p ∈ l, p.length = 2 ^ n2) → l.flatten.length = l.length * 2 ^ n2 := by
    intro l
    induction l with
    | nil => simp
    | cons a l ih =>
      intro h
      rw [List.flatten_cons, List.length_append, ih fun p hp => h p (by simp [hp]), h a (by simp), List.length_cons, Nat.add_mul, Nat.one_mul, Nat.add_comm]
  have hlk : (toLweKey sk2).length = d2 * 2 ^ n2 := by rw [toLweKey, hflat sk2 hsk2.2, hsk2.1]
  have hm2 : 0 < d2 * 2 ^ n2 := Nat.mul_pos hd2 (Nat.two_pow_pos n2)
  obtain ⟨bsk, k1, k2⟩ := bskRows_spec (E := Eb) hW rp hlp hcp hltp sk2 hsk2 bmasks hbm bnoise hbn 0 s
  rw [hs] at k1
  obtain ⟨cbsk, c1, c2⟩ := cbskLoop_spec hlf hcf hltf hm2 hd (toLweKey sk2) hlk sk hsk hkb fmasks fnoise hfm hfn 0 sk fun p hp => hp
  rw [hsk.1] at c1
  refine ⟨bsk, cbsk, ?_, ?_, ?_⟩
  · rw [bskGen, if_pos ⟨by omega, isPow2_iff.mpr ⟨n2, rfl⟩, by omega, hval, by simp [freshBsk], hsk2.1, by simp [bitKey, hs]⟩]
    exact k1
  · rw [cbskGen, if_pos ⟨by simp [freshCbsk], hsk.1⟩, freshCbsk, freshPfk, Nat.one_mul]
    exact c1
  intro ct x bit fe hdec hnear hfe
  have hcta : ct.a.length = m := by
    by_contra hne
    rw [lweDecrypt, if_neg (by tauto)] at hdec
    simp at hdec
  rw [lweDecrypt, if_pos ⟨by omega, hcta⟩] at hdec
  obtain rfl := Option.some.inj hdec
  obtain ⟨lo, y, o1, o2, o3, o4, o5⟩ := hiToLo_spec (F := F) hlp hcp hltp hd2 hm hcc8 hv hltc hvn hnW sk2 hsk2 hS2 s hs bsk k2 fe hfe ct hcta bit hnear hsmall
  have hcn : rc.count ≤ 2 ^ n2 := by
    have h1 := ceilLog2_lt hv (show rc.count - 1 < rc.count by omega)
    have h2 : 2 ^ v ≤ 2 ^ n2 := Nat.pow_le_pow_right (by decide) (by omega)
    omega
  obtain ⟨ls, l1, l2, l3⟩ := extractRotate_spec hd2 hlc hltc hcn sk2 hsk2 lo o2 y o3 o4 bit o5 rc.count 0 (by omega)
  rw [← List.range_eq_range'] at l3
  obtain ⟨g, g1, g2⟩ := pfksRows_spec (S := 1) hlf hcf hltf hm2 hd hW1 (Nat.le_refl 1) (toLweKey sk2) hlk sk (if bit then 1 else 0) ls l2 l3 sk cbsk
    (fun p hp => ⟨hsk.2 p hp, hkb p hp⟩) c2
  rw [hsk.1] at g1
  refine ⟨g, by rw [cbsPfks, o1]; simp only [l1]; exact g1, fun F' => ?_⟩
  have hem : Tfhe.em (2 ^ n) (if bit then 1 else 0 : BitVec W) = (if bit then 1 else 0) := by
    cases bit
    · exact map_zero _
    · exact map_one _
  have hwt := binary_weight hW1 (toLweKey sk2) (by
    intro z hz
    obtain ⟨p, hp, hzp⟩ := List.mem_flatten.1 hz
    exact hbin2 p hp z hzp)
  have hbd : pfksBound W (d2 * 2 ^ n2) rf 1 (weight (toLweKey sk2)) Ef + 1 * (m * cmuxBound W d2 (2 ^ n2) rp 1 Eb F) =
      pfksCircuitNoise W d2 n2 m rp rf Eb Ef F ((toLweKey sk2).count 1) := by
    rw [pfksBound, pfksCircuitNoise, stepError_eq, hwt, Nat.one_mul, Nat.one_mul]
  rw [hem, hbd] at g2
  exact selects_of_ok hlc hcc (by omega) hsk hkb g2

/-- the conditions hold for a bootstrap in degree 2048 with GGSW radix of log 5 and count 4, LWE keys with up to 380 ones -/
example : 2 ^ 60 + (380 + 1) * 2 ^ (64 - (11 + 1 - 2) - 1) < 2 ^ (64 - 2) ∧ ceilLog2 4 = some 2 ∧ 2 + 1 ≤ 11 ∧ 11 + 1 < 64 ∧ 5 * 4 + 1 < 64 ∧
    KeyFor [[1#64, 0#64, 0#64, 1#64]] 1 (2 ^ 2) ∧ (∀ s ∈ [[1#64, 0#64, 0#64, 1#64]], ∀ x ∈ s, x = 0 ∨ x = 1) := by
  refine ⟨by decide, by decide, by decide, by decide, by decide, ⟨rfl, by simp⟩, by simp⟩

/-- circuit bootstrapping of `bit` through private functional keyswitching from degree 4, LWE dimension 1 to degree 2, W = 9; the
result selects between a ciphertext of 0 and one of `0x40` -/
def exPfksCircuit (bit : Bool) (out : List (List (Glwe (BitVec 9)))) : Option (List (BitVec 9)) :=
  (bskGen 1 1 4 ⟨4, 2⟩ (freshBsk 9 1 1 4 2) [1] [[0, 1, 0, 0]] (fun _ _ _ => [[0, 0, 0, 0]]) (fun _ _ _ => none)).bind fun bsk =>
  (cbskGen 4 1 2 ⟨4, 2⟩ (freshCbsk 9 4 1 2 2) [0, 1, 0, 0] [[1, 1]] (fun _ _ _ => [[0, 3]]) (fun _ _ _ => none)).bind fun cbsk =>
  (cbsPfks 1 1 4 1 2 ⟨4, 2⟩ ⟨3, 2⟩ ⟨4, 2⟩ (fun _ => glweZero 1 4) out ⟨[97], 97 + 13 + (if bit then 256 else 0)⟩ bsk cbsk).bind fun g =>
  (cmux 1 2 ⟨3, 2⟩ (glweZero 1 2) ⟨[[0, 0]], [0, 0]⟩ ⟨[[0x40, 0]], [0x40 + 0x40, 0x40]⟩ g).bind fun c => glweDecrypt c [[1, 1]]

/-- computed: the selector of 1 picks the second ciphertext, the selector of 0 the first -/
example : (exPfksCircuit true (freshGgsw 9 1 2 2)).map (fun y => y.map fun x => decode x 3) = some [some 1, some 0] ∧
    (exPfksCircuit false (freshGgsw 9 1 2 2)).map (fun y => y.map fun x => decode x 3) = some [some 0, some 0] := by constructor <;> decide +kernel

/-- **C85, violation.** Circuit bootstrapping into an output that already holds a ciphertext succeeds, and the result does not
select by the bit. -/
theorem C85_stale_violated : ∃ (out : List (List (Glwe (BitVec 9)))),
    out.length = 2 ∧ (∀ row ∈ out, row.length = 2 ∧ ∀ y ∈ row, y.valid 1 2) ∧
    (exPfksCircuit true (freshGgsw 9 1 2 2)).map (fun y => y.map fun x => decode x 3) = some [some 1, some 0] ∧
    (exPfksCircuit true out).map (fun y => y.map fun x => decode x 3) = some [some 7, some 7] :=
  ⟨[[⟨[[0, 0]], [0, 0]⟩, ⟨[[0, 0]], [0, 0]⟩], [⟨[[0, 0]], [0x40, 0]⟩, ⟨[[0, 0]], [8, 0]⟩]], by decide, by simp [Glwe.valid], by decide +kernel, by decide +kernel⟩

end Spf.Props
