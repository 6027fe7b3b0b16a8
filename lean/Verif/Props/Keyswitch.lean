import Verif.Proof.Keyswitch
import Verif.Props.Glwe
/-!
C53: switching an LWE ciphertext to another key. Torus elements are `BitVec W` (`W = 32` or `64` in the code); all random
draws are universally quantified, the noise being bounded integers.
-/
namespace Spf.Props
open Spf.Spec Spf.Tfhe

/-- **C53.** Generate a keyswitch key from `old` to `new` (any masks, any noise of absolute value at most `E`), with key
elements of absolute value at most `S` that pass the overflow check (`< 2^log`) when overflow checks are on. Then
generation succeeds, and switching *any* ciphertext succeeds and decrypts under `new` to what the input decrypts to under
`old`, up to `n' * (S * 2^(W - log*count - 1) + count * 2^(log-1) * E)`: rounding of the `n'` mask elements, plus one fresh
noise per digit. Missing from the full claim: keys with larger elements with overflow checks on (see
`C53_uniform_key_violated`), and decompositions that use all the bits (they panic, `C45_full_width_violated`). -/
theorem C53_keyswitch_partial (W : Nat) (hW : W ≤ 64) (checked : Bool) (n' n S E : Nat) (hn' : n' ≠ 0) (hn : n ≠ 0) (r : Radix)
    (hl : 0 < r.log) (hc : 0 < r.count) (hlt : r.log * r.count < W) (old new : List (BitVec W)) (hold : old.length = n')
    (hnew : new.length = n) (hS : ∀ s ∈ old, s.toInt.natAbs ≤ S) (hfit : checked = true → ∀ s ∈ old, s.toNat < 2 ^ r.log)
    (buf : List (List (Lwe (BitVec W)))) (hbuf : kskShape n' n r.count buf)
    (draws : Nat → Nat → List (BitVec W)) (hd : ∀ i j, (draws i j).length = n)
    (noise : Nat → Nat → Int) (hE : ∀ i j, (noise i j).natAbs ≤ E) :
    ∃ ksk, kskGen checked n' n r buf old new draws (fun i j => BitVec.ofInt W (noise i j)) = some ksk ∧
      ∀ ct : Lwe (BitVec W), ct.a.length = n' →
        ∃ out x y, keyswitch n' n r ct ksk = some out ∧ out.a.length = n ∧ lweDecrypt n' old ct = some x ∧ lweDecrypt n new out = some y ∧
          Near (n' * (S * 2 ^ (W - r.log * r.count - 1) + r.count * (2 ^ (r.log - 1) * E))) y x := by
  have hv : r.valid W = true := by
    have := Nat.mul_comm r.log r.count
    simp only [Radix.valid, Bool.and_eq_true, decide_eq_true_eq]; omega
  obtain ⟨b1, b2⟩ := hbuf
  obtain ⟨ksk, k1, k2⟩ := kskRows_spec (E := E) hn hW hl (le_of_lt hlt) new hnew draws noise hd hE 0 old buf (by omega)
    (fun s hs hch => hfit hch s hs) b2
  have hshape : kskShape n' n r.count ksk := by
    refine ⟨by rw [← k2.length_eq, hold], fun row hrow => ?_⟩
    obtain ⟨i, hi, rfl⟩ := List.getElem_of_mem hrow
    have := (List.forall₂_iff_get.1 k2).2 i (by rw [k2.length_eq]; exact hi) hi
    exact ⟨this.1, this.2.1⟩
  refine ⟨ksk, by rw [kskGen, if_pos ⟨hn', hn, hv, hnew, hold, b1, b2⟩]; exact k1, fun ct hct => ?_⟩
  obtain ⟨sum, s1, s2, s3⟩ := ksLoop_spec (S := S) hl hc hlt new ct.a old ksk (lweZero n) (by omega) k2 (by simp [lweZero]) hS
  have hz : ph new (lweZero n) = 0 := by
    have h0 : (List.replicate n (0 : BitVec W)) = (List.replicate n (0 : BitVec W)).map fun _ => 0 := by simp
    rw [ph, lweZero]
    simp only
    rw [h0, dotAcc_zero, sub_zero]
  refine ⟨⟨List.zipWith (· - ·) (List.replicate n 0) sum.a, ct.b - sum.b⟩, _, _, ?_, by simp [s2], by rw [lweDecrypt, if_pos ⟨hn', hct⟩],
    by rw [lweDecrypt, if_pos ⟨hn, by simp [s2]⟩], ?_⟩
  · rw [keyswitch, if_pos ⟨hn', hn, hv, hct, hshape⟩, s1]
    simp only [lweTrivial, if_pos (show n ≠ 0 ∧ (lweZero (W := W) n).a.length = n from ⟨hn, by simp [lweZero]⟩), lweSub]
    rw [if_pos (by simp [lweZero, s2])]
    simp [lweZero]
  · apply near_of_small
    rw [hz, hct] at s3
    have h0 : dotAcc (List.replicate n (0 : BitVec W)) new 0 = 0 := by
      have h1 : (List.replicate n (0 : BitVec W)) = (List.replicate n (0 : BitVec W)).map fun _ => 0 := by simp
      rw [h1, dotAcc_zero]
    have hph : ct.b - sum.b - dotAcc (List.zipWith (· - ·) (List.replicate n 0) sum.a) new 0 = ct.b - ph new sum := by
      rw [dotAcc_sub _ _ _ (by simp [s2]), h0, ph]; ring
    simp only
    rw [hph]
    have := s3.neg
    convert this using 1
    simp only [Tfhe.em, map_sub, map_zero]
    ring

/-- a concrete case: 3-bit binary key to a 2-element key, 64-bit torus, decomposition base 16 with 3 digits, noise 5 -/
example : (64 : Nat) ≤ 64 ∧ (0:Nat) < 4 ∧ (0:Nat) < 3 ∧ 4 * 3 < 64 ∧ (∀ s ∈ [1#64, 0#64, 1#64], s.toInt.natAbs ≤ 1 ∧ s.toNat < 2 ^ 4) ∧
    kskShape 3 2 3 (List.replicate 3 (List.replicate 3 (⟨[0, 0], 0⟩ : Lwe (BitVec 64)))) ∧ ((5 : Int)).natAbs ≤ 5 := by
  simp [kskShape]

/-- the switch really happens: with zero noise on a small instance the output decrypts to the rounded phase -/
example : ((kskGen (W := 32) true 2 1 ⟨8, 3⟩ (List.replicate 2 (List.replicate 3 ⟨[0], 0⟩)) [1#32, 1#32] [1#32] (fun i j => [BitVec.ofNat 32 (77 * i + j)])
    (fun _ _ => 0)).bind fun ksk => (keyswitch 2 1 ⟨8, 3⟩ ⟨[0x12345678#32, 0x9abcdef0#32], 0x50000000#32⟩ ksk).bind (lweDecrypt 1 [1#32])) =
    some (0x50000000#32 - 0x12345600#32 - 0x9abcdf00#32) := by decide +kernel

/-- **C53, decoding.** With a binary key and the total error (input noise plus switching error) below half an encoding
step, the switched ciphertext decodes to the message of the input, in both build profiles. -/
theorem C53_decode_partial (W : Nat) (hW : W ≤ 64) (checked : Bool) (n' n E p m : Nat) (hn' : n' ≠ 0) (hn : n ≠ 0) (r : Radix)
    (hl : 0 < r.log) (hc : 0 < r.count) (hlt : r.log * r.count < W) (old new : List (BitVec W)) (hold : old.length = n')
    (hnew : new.length = n) (hbin : ∀ s ∈ old, s = 0 ∨ s = 1) (hp0 : 0 < p) (hp : p < W) (hp32 : p < 32) (hm : m < 2 ^ p)
    (buf : List (List (Lwe (BitVec W)))) (hbuf : kskShape n' n r.count buf)
    (draws : Nat → Nat → List (BitVec W)) (hd : ∀ i j, (draws i j).length = n)
    (noise : Nat → Nat → Int) (hE : ∀ i j, (noise i j).natAbs ≤ E) (e : Nat)
    (hsmall : e + n' * (2 ^ (W - r.log * r.count - 1) + r.count * (2 ^ (r.log - 1) * E)) < 2 ^ (W - p - 1)) :
    ∃ ksk c, kskGen checked n' n r buf old new draws (fun i j => BitVec.ofInt W (noise i j)) = some ksk ∧
      encode (BitVec.ofNat W m) p = some c ∧
      ∀ (ct : Lwe (BitVec W)) (x : BitVec W), ct.a.length = n' → lweDecrypt n' old ct = some x → Near e x c →
        ∃ out y, keyswitch n' n r ct ksk = some out ∧ lweDecrypt n new out = some y ∧ decode y p = some (BitVec.ofNat W m) := by
  have hW1 : 1 < W := by omega
  have hone : (1 : BitVec W).toNat = 1 := by
    show (BitVec.ofNat W 1).toNat = 1
    rw [BitVec.toNat_ofNat, Nat.mod_eq_of_lt (Nat.one_lt_two_pow (by omega))]
  have hS : ∀ s ∈ old, s.toInt.natAbs ≤ 1 := by
    intro s hs
    rcases hbin s hs with rfl | rfl
    · simp
    · rw [BitVec.toInt_eq_toNat_of_lt (by rw [hone]; have := Nat.pow_lt_pow_right (a := 2) (by decide) hW1; omega), hone]; simp
  have hfit : checked = true → ∀ s ∈ old, s.toNat < 2 ^ r.log := by
    intro _ s hs
    rcases hbin s hs with rfl | rfl
    · simpa using Nat.two_pow_pos _
    · rw [hone]; exact Nat.one_lt_two_pow (by omega)
  obtain ⟨ksk, h1, h2⟩ := C53_keyswitch_partial W hW checked n' n 1 E hn' hn r hl hc hlt old new hold hnew hS hfit buf hbuf draws hd noise hE
  refine ⟨ksk, wrapShl (BitVec.ofNat W m) (W - p), h1, by rw [encode, if_pos hp], ?_⟩
  intro ct x hct hx hnear
  obtain ⟨out, x', y, h3, _, h4, h5, h6⟩ := h2 ct hct
  rw [hx] at h4
  obtain rfl := Option.some.inj h4
  refine ⟨out, y, h3, h5, ?_⟩
  obtain ⟨err, he, rfl⟩ := Tfhe.Near.trans h6 hnear
  rw [Nat.one_mul] at he
  have hb : (2 ^ (W - p - 1) : Int) = ((2 ^ (W - p - 1) : Nat) : Int) := by push_cast; rfl
  obtain ⟨c, h7, h8⟩ := C44_decode_encode_partial W p hp0 hp hp32 m hm err (by rw [hb]; omega) (by rw [hb]; omega)
  rw [encode, if_pos hp] at h7
  rw [Option.some.inj h7]
  exact h8

/-- concrete: 10 elements, 20-bit decomposition, noise below 2^10, 4-bit message on the 64-bit torus -/
example : 2 ^ 40 + 10 * (2 ^ (64 - 4 * 5 - 1) + 5 * (2 ^ (4 - 1) * 2 ^ 10)) < 2 ^ (64 - 4 - 1) := by decide

/-- **C53, violation.** With overflow checks on, generating a keyswitch key panics as soon as the original key has an
element of at least `2^log` — so for almost every key of `LweSecretKey::generate_uniform`, documented as a valid key —
whatever the other arguments. -/
theorem C53_uniform_key_violated (W n' n : Nat) (r : Radix) (hl : 0 < r.log) (hc : 0 < r.count) (hlt : r.log * r.count ≤ W)
    (old new : List (BitVec W)) (s : BitVec W) (hs : s ∈ old) (hbig : 2 ^ r.log ≤ s.toNat)
    (buf : List (List (Lwe (BitVec W)))) (draws : Nat → Nat → List (BitVec W)) (noise : Nat → Nat → BitVec W) :
    kskGen true n' n r buf old new draws noise = none := by
  rw [kskGen]
  split
  · rename_i h
    obtain ⟨_, _, _, _, hold, b1, b2⟩ := h
    have key : ∀ (old : List (BitVec W)) (i : Nat) (buf : List (List (Lwe (BitVec W)))), s ∈ old → old.length = buf.length →
        (∀ row ∈ buf, row.length = r.count) → kskRows true n r.log new draws noise i old buf = none := by
      intro old
      induction old with
      | nil => intro i buf hs; simp at hs
      | cons x old ih =>
        intro i buf hs hlen hrow
        cases buf with
        | nil => simp at hlen
        | cons row rows =>
          rw [kskRows]
          rcases List.mem_cons.1 hs with rfl | hs'
          · have hrl := hrow row (by simp)
            cases row with
            | nil => simp at hrl; omega
            | cons b row =>
              have : kskRow true n r.log new s (draws i) (noise i) 0 (b :: row) = none := by
                rw [kskRow]
                cases hg : gadgetFactor W r.log 0 with
                | none => rfl
                | some f =>
                  have hf : f = BitVec.ofNat W (2 ^ (W - r.log)) := by
                    rw [gadgetFactor] at hg
                    split at hg
                    · simpa using (Option.some.inj hg).symm
                    · simp at hg
                  have hk : kskMsg true f s = none := by
                    rw [kskMsg, if_pos]
                    refine ⟨rfl, ?_⟩
                    have hle : r.log ≤ W := le_trans (Nat.le_mul_of_pos_right _ hc) hlt
                    have h1 : f.toNat = 2 ^ (W - r.log) := by
                      rw [hf, BitVec.toNat_ofNat, Nat.mod_eq_of_lt (Nat.pow_lt_pow_right (by decide) (by omega))]
                    rw [h1, not_lt]
                    calc 2 ^ W = 2 ^ (W - r.log) * 2 ^ r.log := by rw [← Nat.pow_add]; congr 1; omega
                      _ ≤ 2 ^ (W - r.log) * s.toNat := Nat.mul_le_mul_left _ hbig
                  simp only [hk]
              rw [this]
          · cases kskRow true n r.log new x (draws i) (noise i) 0 row with
            | none => rfl
            | some q => simp only [ih (i + 1) rows hs' (by simpa using hlen) (fun z hz => hrow z (by simp [hz]))]
    exact key old 0 buf hs (by omega) fun row hr => (b2 row hr).1
  · rfl

/-- the case is reachable: all the checks of the function pass for such a key -/
example : (2:Nat) ≠ 0 ∧ (1:Nat) ≠ 0 ∧ Radix.valid 64 ⟨4, 3⟩ = true ∧ [1#64].length = 1 ∧ [0x123456789abcdef0#64, 7#64].length = 2 ∧
    kskShape 2 1 3 (List.replicate 2 (List.replicate 3 (⟨[0], 0⟩ : Lwe (BitVec 64)))) ∧ 2 ^ 4 ≤ (0x123456789abcdef0#64).toNat := by decide +kernel

end Spf.Props
