import Verif.Proof.Pufks
import Verif.Props.Pfks
/-!
C86: public functional keyswitching applies the caller's linear map to the messages of LWE ciphertexts. Torus elements are
`BitVec W`; all masks, bounded noises, bounded errors of the inverse Fourier transform and contents of the scratch polynomial are
universally quantified.
-/
namespace Spf.Props
open Spf.Spec Spf.Tfhe

/-- a freshly allocated key from LWE dimension `m` -/
def freshPufk (W m k N count : Nat) : List (List (Glwe (BitVec W))) := List.replicate m (List.replicate count (glweZero k N))

/-- The error of a public functional keyswitch under the LWE key `s` of dimension `m` to a GLWE key of dimension `k`, `N` whose
coefficients are at most `S`: the rounding of the decomposition once for the absolute value of every element of `s`, the noise `E`
of every key ciphertext times half the radix and the degree, and the error `F` of the inverse transform. -/
def pufksError (W m k N : Nat) (r : Radix) (S E F : Nat) (s : List (BitVec W)) : Nat :=
  (s.map fun x => x.toInt.natAbs).sum * 2 ^ (W - r.log * r.count - 1) + m * (r.count * (N * (2 ^ (r.log - 1) * E))) + (F + k * (N * (F * S)))

theorem pufks_general (W : Nat) (n k m p R E F S : Nat) (r : Radix) (hl : 0 < r.log) (hc : 0 < r.count) (hlt : r.log * r.count < W) (hp : p ≤ 2 ^ n)
    (f : List (BitVec W) → List (BitVec W) → Option (List (BitVec W))) (hf : Morphism (2 ^ n) p R (f (List.replicate (2 ^ n) 0)))
    (I : List (BitVec W) → Prop) (hI : Resets (2 ^ n) p f I)
    (s : List (BitVec W)) (hs : s.length = m) (sk : List (List (BitVec W))) (hsk : KeyFor sk k (2 ^ n)) (hkb : KeyBound S sk)
    (masks : Nat → Nat → List (List (BitVec W))) (hma : ∀ i j, KeyFor (masks i j) k (2 ^ n)) (noise : Nat → Nat → Option (List Int))
    (hno : ∀ i j, NoiseOk (2 ^ n) E (noise i j)) :
    ∃ key, pufkGen m k (2 ^ n) r (freshPufk W m k (2 ^ n) r.count) s sk masks (fun i j => (noise i j).map fun l => l.map (BitVec.ofInt W)) = some key ∧
      ∀ (inputs : List (Lwe (BitVec W))) (xs poly : List (BitVec W)) (fe : Glwe (BitVec W)),
        List.Forall₂ (fun ct x => lweDecrypt m s ct = some x) inputs xs → inputs.length = p → I poly → FftErr k (2 ^ n) F fe →
        ∃ c y q, pufks m k (2 ^ n) r fe poly f inputs key = some c ∧ c.valid k (2 ^ n) ∧ f (List.replicate (2 ^ n) 0) xs = some q ∧
          glweDecrypt c sk = some y ∧ NearPoly (pufksError W m k (2 ^ n) r S E F s) y q := by
  have hfresh : ∀ row ∈ freshPufk W m k (2 ^ n) r.count, row.length = r.count ∧ ∀ b ∈ row, FreshBuf k (2 ^ n) b := by
    intro row hrow
    rw [freshPufk] at hrow
    rw [List.eq_of_mem_replicate hrow]
    refine ⟨by simp, fun b hb => ?_⟩
    rw [List.eq_of_mem_replicate hb]
    exact ⟨glweZero_valid k _, by simp [glweZero]⟩
  obtain ⟨key, k1, k2⟩ := pufkLoop_spec (r := r) sk hsk masks noise hma hno 0 s (freshPufk W m k (2 ^ n) r.count) (by simp [freshPufk, hs]) hfresh
  refine ⟨key, ?_, fun inputs xs poly fe hdec hlen hpoly hfe => ?_⟩
  · rw [pufkGen, if_pos ⟨hs, hsk, by simp [freshPufk], fun row hrow => ⟨(hfresh row hrow).1, fun ct hct => ((hfresh row hrow).2 ct hct).1⟩⟩]
    exact k1
  · obtain ⟨hxs, hina⟩ := dec_ph hdec
    have hN : isPow2 (2 ^ n) = true := isPow2_iff.mpr ⟨n, rfl⟩
    obtain ⟨c, q, c1, c2, c3, c4, c5⟩ := pufks_spec hN hl hc hlt f I hf hI s hs sk hsk.1 (key_small hsk hkb) key k2 inputs hlen hp hina poly hpoly fe hfe
    obtain ⟨y, y1, y2, y3⟩ := decrypt_phase hN c sk c2 hsk.2
    refine ⟨c, y, q, c1, c2, by rw [hxs]; exact c3, y1, nearPoly_of_small y2 c4 ?_⟩
    rw [y3]
    exact c5

/-- **C86** (`_partial`: for maps that write every coefficient; see `C86_scratch_violated`). Generate a key into fresh memory (it
succeeds). Then for every map `f` that respects addition and overwrites its polynomial, all ciphertexts that decrypt to `xs`, and
every content of the scratch polynomial, the keyswitch succeeds, and the output decrypts to the image of `xs` up to
`pufksError`. -/
theorem C86_public_keyswitch_partial (W : Nat) (n k m p R E F S : Nat) (r : Radix) (hl : 0 < r.log) (hc : 0 < r.count) (hlt : r.log * r.count < W) (hp : p ≤ 2 ^ n)
    (f : List (BitVec W) → List (BitVec W) → Option (List (BitVec W))) (hf : Morphism (2 ^ n) p R (f (List.replicate (2 ^ n) 0))) (hw : Overwrites (2 ^ n) p f)
    (s : List (BitVec W)) (hs : s.length = m) (sk : List (List (BitVec W))) (hsk : KeyFor sk k (2 ^ n)) (hkb : KeyBound S sk)
    (masks : Nat → Nat → List (List (BitVec W))) (hma : ∀ i j, KeyFor (masks i j) k (2 ^ n)) (noise : Nat → Nat → Option (List Int))
    (hno : ∀ i j, NoiseOk (2 ^ n) E (noise i j)) :
    ∃ key, pufkGen m k (2 ^ n) r (freshPufk W m k (2 ^ n) r.count) s sk masks (fun i j => (noise i j).map fun l => l.map (BitVec.ofInt W)) = some key ∧
      ∀ (inputs : List (Lwe (BitVec W))) (xs poly : List (BitVec W)) (fe : Glwe (BitVec W)),
        List.Forall₂ (fun ct x => lweDecrypt m s ct = some x) inputs xs → inputs.length = p → poly.length = 2 ^ n → FftErr k (2 ^ n) F fe →
        ∃ c y q, pufks m k (2 ^ n) r fe poly f inputs key = some c ∧ c.valid k (2 ^ n) ∧ f (List.replicate (2 ^ n) 0) xs = some q ∧
          glweDecrypt c sk = some y ∧ NearPoly (pufksError W m k (2 ^ n) r S E F s) y q :=
  pufks_general W n k m p R E F S r hl hc hlt hp f hf (fun poly => poly.length = 2 ^ n) (fun poly h xs hx => ⟨hw poly xs h hx, fun q hq => by
    obtain ⟨y, h1, h2⟩ := hf.total xs hx
    rw [hq] at h1
    cases h1
    exact h2⟩) s hs sk hsk hkb masks hma noise hno

/-- **C86, zeroed scratch memory.** If the scratch polynomial happens to be zero, the map need not write every coefficient: it is
enough that it gives the same result on the zero polynomial and on polynomials that it wrote itself. -/
theorem C86_zero_scratch_partial (W : Nat) (n k m p R E F S : Nat) (r : Radix) (hl : 0 < r.log) (hc : 0 < r.count) (hlt : r.log * r.count < W) (hp : p ≤ 2 ^ n)
    (f : List (BitVec W) → List (BitVec W) → Option (List (BitVec W))) (hf : Morphism (2 ^ n) p R (f (List.replicate (2 ^ n) 0))) (hw : Rewrites (2 ^ n) p f)
    (s : List (BitVec W)) (hs : s.length = m) (sk : List (List (BitVec W))) (hsk : KeyFor sk k (2 ^ n)) (hkb : KeyBound S sk)
    (masks : Nat → Nat → List (List (BitVec W))) (hma : ∀ i j, KeyFor (masks i j) k (2 ^ n)) (noise : Nat → Nat → Option (List Int))
    (hno : ∀ i j, NoiseOk (2 ^ n) E (noise i j)) :
    ∃ key, pufkGen m k (2 ^ n) r (freshPufk W m k (2 ^ n) r.count) s sk masks (fun i j => (noise i j).map fun l => l.map (BitVec.ofInt W)) = some key ∧
      ∀ (inputs : List (Lwe (BitVec W))) (xs : List (BitVec W)) (fe : Glwe (BitVec W)),
        List.Forall₂ (fun ct x => lweDecrypt m s ct = some x) inputs xs → inputs.length = p → FftErr k (2 ^ n) F fe →
        ∃ c y q, pufks m k (2 ^ n) r fe (List.replicate (2 ^ n) 0) f inputs key = some c ∧ c.valid k (2 ^ n) ∧ f (List.replicate (2 ^ n) 0) xs = some q ∧
          glweDecrypt c sk = some y ∧ NearPoly (pufksError W m k (2 ^ n) r S E F s) y q := by
  obtain ⟨key, k1, k2⟩ := pufks_general W n k m p R E F S r hl hc hlt hp f hf
    (fun poly => poly = List.replicate (2 ^ n) 0 ∨ ∃ xs, xs.length = p ∧ f (List.replicate (2 ^ n) 0) xs = some poly) (fun poly h xs hx => by
      refine ⟨?_, fun q hq => Or.inr ⟨xs, hx, hq⟩⟩
      rcases h with rfl | ⟨ys, h1, h2⟩
      · rfl
      · exact hw ys xs poly h1 hx h2) s hs sk hsk hkb masks hma noise hno
  exact ⟨key, k1, fun inputs xs fe h1 h2 h3 => k2 inputs xs _ fe h1 h2 (Or.inl rfl) h3⟩

theorem pack_rewrites {W N p : Nat} (h : p ≤ N) : Rewrites (W := W) N p packMap := by
  intro xs ys q hx hy hq
  rw [packMap, if_pos (by simp; omega)] at hq
  obtain rfl := Option.some.inj hq
  rw [packMap, if_pos (by simp; omega), packMap, if_pos (by simp; omega), List.drop_replicate, List.drop_replicate, hx, hy, List.drop_append_of_le_length (by omega),
    List.drop_of_length_le (by omega), List.nil_append]

/-- The map that writes input `i` to coefficient `i` and zero to the other coefficients. -/
def packAll {W : Nat} (poly x : List (BitVec W)) : Option (List (BitVec W)) :=
  if x.length ≤ poly.length then some (x ++ List.replicate (poly.length - x.length) 0) else none

/-- A map that adds the inputs to the first coefficients; on a zero polynomial, it is the same map as `packMap`. -/
def addMap {W : Nat} (poly x : List (BitVec W)) : Option (List (BitVec W)) := some (zipAssign (· + ·) poly x)

/-- **C86, packing.** With the map of the unit test (line 228, input `i` goes to coefficient `i`) and zeroed scratch memory: if
every input holds a `bits`-bit message with error at most `e`, and `e` and the keyswitch error stay below half an encoding step,
decoding coefficient `i` gives message `i`. -/
theorem C86_pack_partial (W : Nat) (n k m p bits e E F S : Nat) (r : Radix) (hl : 0 < r.log) (hc : 0 < r.count) (hlt : r.log * r.count < W)
    (hpn : p ≤ 2 ^ n) (hb0 : 0 < bits) (hb : bits < W) (hb32 : bits < 32) (s : List (BitVec W)) (hs : s.length = m) (sk : List (List (BitVec W)))
    (hsk : KeyFor sk k (2 ^ n)) (hkb : KeyBound S sk) (masks : Nat → Nat → List (List (BitVec W))) (hma : ∀ i j, KeyFor (masks i j) k (2 ^ n))
    (noise : Nat → Nat → Option (List Int)) (hno : ∀ i j, NoiseOk (2 ^ n) E (noise i j))
    (hsmall : pufksError W m k (2 ^ n) r S E F s + e < 2 ^ (W - bits - 1)) :
    ∃ key, pufkGen m k (2 ^ n) r (freshPufk W m k (2 ^ n) r.count) s sk masks (fun i j => (noise i j).map fun l => l.map (BitVec.ofInt W)) = some key ∧
      ∀ (inputs : List (Lwe (BitVec W))) (xs : List (BitVec W)) (ms : List Nat) (fe : Glwe (BitVec W)), List.Forall₂ (fun ct x => lweDecrypt m s ct = some x) inputs xs →
        List.Forall₂ (fun x v => v < 2 ^ bits ∧ Near e x (BitVec.ofNat W (v * 2 ^ (W - bits)))) xs ms → inputs.length = p → FftErr k (2 ^ n) F fe →
        ∃ c y, pufks m k (2 ^ n) r fe (List.replicate (2 ^ n) 0) packMap inputs key = some c ∧ glweDecrypt c sk = some y ∧
          ∀ i v, ms[i]? = some v → decode (y.getD i 0) bits = some (BitVec.ofNat W v) := by
  obtain ⟨key, k1, k2⟩ := C86_zero_scratch_partial W n k m p 1 E F S r hl hc hlt hpn packMap (pack_morphism hpn) (pack_rewrites hpn) s hs sk hsk hkb masks hma noise hno
  refine ⟨key, k1, fun inputs xs ms fe h1 h2 h3 hfe => ?_⟩
  obtain ⟨c, y, q, c1, c2, c3, c4, c5⟩ := k2 inputs xs fe h1 h3 hfe
  refine ⟨c, y, c1, c4, fun i v hv => ?_⟩
  have hxl : xs.length = p := by rw [← h1.length_eq, h3]
  rw [packMap, if_pos (by simp; omega)] at c3
  obtain rfl := Option.some.inj c3
  have hi : i < ms.length := by
    by_contra hn
    rw [List.getElem?_eq_none (by omega)] at hv
    simp at hv
  rw [List.getElem?_eq_getElem hi] at hv
  obtain rfl := Option.some.inj hv
  have hix : i < xs.length := by rw [h2.length_eq]; exact hi
  obtain ⟨a1, a2⟩ := (List.forall₂_iff_get.1 h2).2 i hix hi
  have hiy : i < y.length := by rw [c5.length_eq]; simp; omega
  have a3 := (List.forall₂_iff_get.1 c5).2 i hiy (by simp; omega)
  simp only [List.get_eq_getElem] at a1 a2 a3
  rw [List.getElem_append_left hix] at a3
  apply near_decode hb0 hb hb32 a1 hsmall
  have hy : y.getD i 0 = y[i] := by simp [List.getD, hiy]
  rw [hy]
  exact Tfhe.Near.trans a3 a2

theorem packAll_zero {W N : Nat} (x : List (BitVec W)) : packAll (List.replicate N 0) x = packMap (List.replicate N 0) x := by
  rw [packAll, packMap, List.length_replicate, List.drop_replicate]

/-- `packAll` meets the hypotheses of `C86_public_keyswitch_partial`; the error of a concrete case is small -/
example : Morphism (W := 64) (2 ^ 2) 3 1 (packAll (List.replicate (2 ^ 2) 0)) ∧ Overwrites (W := 64) (2 ^ 2) 3 packAll ∧ KeyFor [[1#64, 0#64, 0#64, 1#64]] 1 (2 ^ 2) ∧
    pufksError 64 2 1 (2 ^ 2) ⟨8, 3⟩ 1 1000 (2 ^ 40) [1#64, 0#64] + 2 ^ 50 < 2 ^ (64 - 4 - 1) := by
  refine ⟨?_, ?_, ⟨rfl, by simp⟩, by simp [pufksError]⟩
  · rw [show packAll (W := 64) (List.replicate (2 ^ 2) 0) = packMap (List.replicate (2 ^ 2) 0) from funext packAll_zero]
    exact pack_morphism (by decide)
  · intro poly xs h1 h2
    rw [packAll, packAll, h1, List.length_replicate]

theorem Morphism.congr {W N p R : Nat} {f g : List (BitVec W) → Option (List (BitVec W))} (hg : Morphism N p R g) (h : ∀ x, x.length = p → f x = g x) :
    Morphism N p R f := by
  refine ⟨fun x hx => by rw [h x hx]; exact hg.total x hx, fun x x' y y' hx hx' h1 h2 => ?_, fun B x x' y y' hx hn h1 h2 => ?_⟩
  · rw [h _ (by simp; omega)]
    exact hg.add x x' y y' hx hx' (by rw [← h x hx, h1]) (by rw [← h x' hx', h2])
  · exact hg.lipschitz B x x' y y' hx hn (by rw [← h x hx, h1]) (by rw [← h x' (by rw [← hn.length_eq, hx]), h2])

theorem add_zip {W : Nat} : ∀ (N : Nat) (x : List (BitVec W)), x.length ≤ N → zipAssign (· + ·) (List.replicate N 0) x = x ++ List.replicate (N - x.length) 0
  | N, [], _ => by cases N <;> simp [zipAssign, List.replicate_succ]
  | 0, _ :: _, h => by simp at h
  | N + 1, v :: x, h => by
    rw [List.replicate_succ, zipAssign, add_zip N x (by simpa using h), zero_add, List.cons_append, List.length_cons, Nat.add_sub_add_right]

theorem add_morphism {W N p : Nat} (h : p ≤ N) : Morphism (W := W) N p 1 (addMap (List.replicate N 0)) :=
  Morphism.congr (pack_morphism h) fun x hx => by
    rw [addMap, packMap, if_pos (by simp; omega), add_zip N x (by omega), List.drop_replicate]

/-- a keyswitch of two ciphertexts of 7 and 2 of degree 4, dimension 2, W = 12, key noise 1, with the given map and scratch
polynomial; decrypted -/
def exPufks (f : List (BitVec 12) → List (BitVec 12) → Option (List (BitVec 12))) (poly : List (BitVec 12)) : Option (List (BitVec 12)) :=
  (pufkGen 2 1 4 ⟨4, 2⟩ (freshPufk 12 2 1 4 2) [1, 1] [[0, 1, 0, 1]] (fun i j => [[BitVec.ofNat 12 (3 * i), 5, BitVec.ofNat 12 j, 7]])
    (fun _ _ => some [1, 0, -1, 1])).bind fun key =>
  (pufks 2 1 4 ⟨4, 2⟩ (glweZero 1 4) poly f [⟨[0x123, 0x456], 0x123 + 0x456 + 0x700⟩, ⟨[0x9, 0x80], 0x9 + 0x80 + 0x200⟩] key).bind fun c => glweDecrypt c [[0, 1, 0, 1]]

/-- computed: with a zero scratch polynomial, or with a map that writes every coefficient, the messages 7 and 2 arrive in
coefficients 0 and 1 -/
example : (exPufks packMap [0, 0, 0, 0]).map (fun y => y.map fun x => decode x 4) = some [some 7, some 2, some 0, some 0] ∧
    (exPufks packAll [0x7ff, 0x400, 0x300, 0x200]).map (fun y => y.map fun x => decode x 4) = some [some 7, some 2, some 0, some 0] := by
  constructor <;> decide +kernel

/-- **C86, violation (scratch memory).** The documentation says that the polynomial given to the map is initialized to 0. It is
scratch memory: with the map of the unit test, which is additive on a zero polynomial, and a scratch polynomial that holds
`0x200` in coefficients 2 and 3, these coefficients of the result decode to 14 instead of 0, although no input was mapped there. -/
theorem C86_scratch_violated : Morphism (W := 12) 4 2 1 (packMap (List.replicate 4 0)) ∧
    (exPufks packMap [0, 0, 0x200, 0x200]).map (fun y => y.map fun x => decode x 4) = some [some 7, some 2, some 14, some 14] :=
  ⟨pack_morphism (by decide), by decide +kernel⟩

/-- **C86, violation (accumulation).** Nor is the polynomial cleared between the calls of the map: a map that adds the inputs to
the polynomial is additive on a zero polynomial, where it agrees with `packMap`, but message 7 becomes 11, even with zeroed scratch
memory. -/
theorem C86_accumulate_violated : Morphism (W := 12) 4 2 1 (addMap (List.replicate 4 0)) ∧
    (∀ x : List (BitVec 12), x.length = 2 → addMap (List.replicate 4 0) x = packMap (List.replicate 4 0) x) ∧
    (exPufks addMap [0, 0, 0, 0]).map (fun y => y.map fun x => decode x 4) = some [some 11, some 2, some 0, some 0] := by
  refine ⟨add_morphism (by decide), fun x hx => ?_, by decide +kernel⟩
  rw [addMap, packMap, if_pos (by simp; omega), add_zip 4 x (by omega), List.drop_replicate]

end Spf.Props
