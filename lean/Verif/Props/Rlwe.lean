import Verif.Model.Rlwe
import Verif.Props.Glwe
import Verif.Props.Torus
/-! C69 (RLWE public-key encryption) and C63 (one-time-pad recryption). -/
namespace Spf.Props
open Spf.Spec Spf.Tfhe
variable {R : Type} [CommRing R]

/-- **C69.** Encrypting `msg` under a public key generated for `s` succeeds and decrypts under `s` to `msg` plus the noise
`e·u + e1 - e0·s`, computed in `R[X]/(X^N + 1)`, where `e` is the noise of the public key, `u`, `e0`, `e1` the draws of
the encryption — for every outcome of all draws. -/
theorem C69_rlwe (n : Nat) (s mask e u e0 e1 msg : List R) (hs : s.length = 2 ^ n) (hmask : mask.length = 2 ^ n)
    (he : e.length = 2 ^ n) (hu : u.length = 2 ^ n) (he0 : e0.length = 2 ^ n) (he1 : e1.length = 2 ^ n)
    (hm : msg.length = 2 ^ n) :
    ∃ pk ct noise, rlwePublicKey (2 ^ n) s mask (some e) = some pk ∧
      rlweEncryptPublic (2 ^ n) msg pk u e0 e1 = some ct ∧ ct.valid 1 (2 ^ n) ∧ noise.length = 2 ^ n ∧
      glweDecrypt ct [s] = some (List.zipWith (· + ·) msg noise) ∧
      cls (2 ^ n) noise = cls (2 ^ n) e * cls (2 ^ n) u + cls (2 ^ n) e1 - cls (2 ^ n) e0 * cls (2 ^ n) s := by
  have hN : isPow2 (2 ^ n) := isPow2_iff.mpr ⟨n, rfl⟩
  have hz : (List.replicate (2 ^ n) (0 : R)).length = 2 ^ n := by simp
  have ksk : KeyFor [s] 1 (2 ^ n) := ⟨rfl, by simpa using hs⟩
  obtain ⟨pk, p1, p2, p3, p4⟩ := C51_glwe_partial n 1 ⟨[List.replicate (2 ^ n) (0 : R)], List.replicate (2 ^ n) 0⟩
    (List.replicate (2 ^ n) 0) [s] [mask] (some e) ⟨rfl, by simp, by simp⟩ rfl hz ksk ⟨rfl, by simpa using hmask⟩
    (by intro e' h; cases h; exact he)
  have hpb : pk.b.length = 2 ^ n := p3.2.2
  obtain ⟨a, a1, a2, a3⟩ := polyMad_spec (List.replicate (2 ^ n) 0) mask u hN hz hmask hu
  obtain ⟨b, b1, b2, b3⟩ := polyMad_spec (List.replicate (2 ^ n) 0) pk.b u hN hz hpb hu
  rw [cls_replicate_zero, zero_add] at a3 b3
  have hcls : cls (2 ^ n) pk.b - dotC (2 ^ n) [mask] [s] = cls (2 ^ n) e := by
    have := (glweDecrypt_eq hN pk [s] p3 ksk.2 _ (by simp [he])).1 p4
    rw [p2] at this
    rw [← this, cls_zipWith_add _ _ _ (by simp [he]), cls_replicate_zero]; simp
  have hv : Glwe.valid (R := R) ⟨[polyAddAssign a e0], polyAddAssign (polyAddAssign b e1) msg⟩ 1 (2 ^ n) := by
    refine ⟨rfl, ?_, ?_⟩ <;> simp [polyAddAssign, zipAssign_length, a2, b2]
  obtain ⟨m, m1, m2, m3⟩ := glweDecrypt_spec hN _ [s] hv ksk.2
  refine ⟨pk, _, List.zipWith (· - ·) m msg, p1, ?_, hv, by simp [m2, hm], ?_, ?_⟩
  · rw [rlweEncryptPublic, p2]
    simp only [a1, b1]
    rw [if_pos ⟨hm, hmask, hpb⟩]
  · rw [m1]; congr 1
    apply List.ext_getElem
    · simp [m2, hm]
    · intro i _ _; simp
  · rw [cls_zipWith_sub _ _ _ (by omega), m3]
    simp only
    rw [cls_addAssign _ _ (by simp [polyAddAssign, zipAssign_length, b2, hm]), cls_addAssign _ _ (by omega), b3, dotC, dotC,
      cls_addAssign _ _ (by omega), a3, ← hcls, dotC, dotC]
    · ring
    all_goals (intro _ _ _ _ h; cases h)

theorem addOp_eq (n k : Nat) (a b : Glwe R) (ha : a.valid k (2 ^ n)) (hb : b.valid k (2 ^ n)) :
    glweAdd a b = some (glweAddOp a b) := by
  have hz : ∀ as bs : List (List R), as.length = bs.length → AllLen (2 ^ n) as → AllLen (2 ^ n) bs →
      zipPolys polyAdd as bs = some (zipAssign polyAddAssign as bs) := by
    intro as
    induction as with
    | nil => intro bs h _ _; cases bs with
      | nil => rfl
      | cons => simp at h
    | cons x as ih => intro bs h h1 h2; cases bs with
      | nil => simp at h
      | cons y bs =>
        rw [zipPolys, polyAdd, if_pos (by rw [h1.cons.1, h2.cons.1]), ih bs (by simpa using h) h1.cons.2 h2.cons.2]
        simp only [zipAssign, polyAddAssign]
        rw [zipAssign_eq (· + ·) x y (by rw [h1.cons.1, h2.cons.1])]
  rw [glweAdd, hz _ _ (by rw [ha.1, hb.1]) ha.2.1 hb.2.1, polyAdd, if_pos (by rw [ha.2.2, hb.2.2])]
  simp only [glweAddOp, polyAddAssign]
  rw [zipAssign_eq (· + ·) a.b b.b (by rw [ha.2.2, hb.2.2])]

/-- Specification: a list of message bits as 64-bit words. -/
def bitWords (m : List Bool) : List (BitVec 64) := m.map fun b => if b then 1#64 else 0#64

theorem encode_bits (m : List Bool) : encodePoly (bitWords m) 1 = some (m.map fun b => if b then (1#64 <<< 63) else 0#64) := by
  unfold encodePoly bitWords
  induction m with
  | nil => rfl
  | cons b m ih =>
    rw [List.map_cons, List.mapM_cons, ih]
    cases b <;> rfl

theorem decode_bit_sum (b k : Bool) (e : BitVec 64) (h1 : -(2 ^ 62 : Int) ≤ e.toInt) (h2 : e.toInt < 2 ^ 62) :
    decode ((if b then (1#64 <<< 63) else 0#64) + (if k then (1#64 <<< 63) else 0#64) + e) 1 =
      some (if b ^^ k then 1#64 else 0#64) := by
  obtain ⟨c, hc1, hc2⟩ := C44_decode_encode_partial 64 1 (by decide) (by decide) (by decide) (if b ^^ k then 1 else 0)
    (by split <;> decide) e.toInt h1 h2
  rw [BitVec.ofInt_toInt] at hc2
  have hc : c = (if b then (1#64 <<< 63) else 0#64) + (if k then (1#64 <<< 63) else 0#64) := by
    cases b <;> cases k <;> (have := Option.some.inj hc1; rw [← this]; decide)
  rw [hc] at hc2
  rw [hc2]
  cases b <;> cases k <;> rfl

theorem otp_bits : ∀ (m k : List Bool), m.length = k.length →
    otpLoop (bitWords (List.zipWith (· ^^ ·) m k)) (bitWords k) = some (bitWords m)
  | [], [], _ => rfl
  | [], _ :: _, h => by simp at h
  | _ :: _, [], h => by simp at h
  | b :: m, c :: k, h => by
    have ih := otp_bits m k (by simpa using h)
    simp only [bitWords, List.zipWith_cons_cons, List.map_cons] at ih ⊢
    rw [otpLoop, ih]
    cases b <;> cases c <;> rfl

/-- **C63.** Take any ciphertext that decrypts to the encoded message bits `m` plus noise and any pad ciphertext that
decrypts to the encoded key bits plus noise, the two noises summing in every coefficient to less than a quarter of the
torus. Then recryption decrypts to `m XOR key`, and removing the pad returns exactly `m`. -/
theorem C63_otp (n k : Nat) (x otp : Glwe (BitVec 64)) (sk : List (List (BitVec 64))) (hx : x.valid k (2 ^ n))
    (ho : otp.valid k (2 ^ n)) (hsk : KeyFor sk k (2 ^ n)) (m key : List Bool) (hm : m.length = 2 ^ n)
    (hk : key.length = 2 ^ n) (em ek n1 n2 : List (BitVec 64)) (hem : encodePoly (bitWords m) 1 = some em)
    (hek : encodePoly (bitWords key) 1 = some ek) (hn1 : n1.length = 2 ^ n) (hn2 : n2.length = 2 ^ n)
    (dx : glweDecrypt x sk = some (List.zipWith (· + ·) em n1))
    (dk : glweDecrypt otp sk = some (List.zipWith (· + ·) ek n2))
    (hnoise : ∀ e ∈ List.zipWith (· + ·) n1 n2, -(2 ^ 62 : Int) ≤ e.toInt ∧ e.toInt < 2 ^ 62) :
    ∃ d, glweDecryptDecode (recryptOtp x otp) sk 1 = some d ∧ d = bitWords (List.zipWith (· ^^ ·) m key) ∧
      decryptOtp d (bitWords key) = some (bitWords m) := by
  obtain ⟨c, ma, mb, e1, e2, e3, e4, e5⟩ := C52_add n k x otp sk hx ho hsk
  rw [dx] at e3; rw [dk] at e4
  cases e3; cases e4
  rw [addOp_eq n k x otp hx ho] at e1
  rw [encode_bits] at hem hek
  cases hem; cases hek
  refine ⟨bitWords (List.zipWith (· ^^ ·) m key), ?_, rfl, ?_⟩
  · rw [glweDecryptDecode, recryptOtp, Option.some.inj e1, e5]
    simp only
    clear dx dk e1 e5 e2
    generalize 2 ^ n = N at *
    have : ∀ (m key : List Bool) (n1 n2 : List (BitVec 64)), m.length = key.length → m.length = n1.length →
        m.length = n2.length → (∀ e ∈ List.zipWith (· + ·) n1 n2, -(2 ^ 62 : Int) ≤ e.toInt ∧ e.toInt < 2 ^ 62) →
        List.mapM (fun x => decode x 1) (List.zipWith (· + ·)
          (List.zipWith (· + ·) (m.map fun b => if b then (1#64 <<< 63) else 0#64) n1)
          (List.zipWith (· + ·) (key.map fun b => if b then (1#64 <<< 63) else 0#64) n2)) =
        some (bitWords (List.zipWith (· ^^ ·) m key)) := by
      intro m
      induction m with
      | nil => intro key n1 n2 _ _ _ _; rfl
      | cons b m ih =>
        intro key n1 n2 h1 h2 h3 h4
        cases key with
        | nil => simp at h1
        | cons c key =>
        cases n1 with
        | nil => simp at h2
        | cons x n1 =>
        cases n2 with
        | nil => simp at h3
        | cons y n2 =>
          have ih' := ih key n1 n2 (by simpa using h1) (by simpa using h2) (by simpa using h3)
            (fun e he => h4 e (by rw [List.zipWith_cons_cons]; exact List.mem_cons_of_mem _ he))
          have h5 := h4 (x + y) (by rw [List.zipWith_cons_cons]; exact List.mem_cons_self ..)
          simp only [List.map_cons, List.zipWith_cons_cons, List.mapM_cons]
          rw [ih']
          have := decode_bit_sum b c (x + y) h5.1 h5.2
          have e : ∀ p q : BitVec 64, p + x + (q + y) = p + q + (x + y) := by
            intro p q; ring
          rw [e, this]
          rfl
    exact this m key n1 n2 (by omega) (by omega) (by omega) hnoise
  · rw [decryptOtp, if_pos (by simp [bitWords, hm, hk])]
    exact otp_bits m key (by omega)

/-- **C63 (end to end).** The same through public-key encryption of both the message and the pad, as
`generate_one_time_pad` does it: if the two encryption noises of `C69_rlwe` sum to less than a quarter of the torus in
every coefficient, the message is recovered. -/
theorem C63_otp_public (n : Nat) (s mask e : List (BitVec 64)) (m key : List Bool) (hs : s.length = 2 ^ n)
    (hmask : mask.length = 2 ^ n) (he : e.length = 2 ^ n) (hm : m.length = 2 ^ n) (hk : key.length = 2 ^ n)
    (u e0 e1 u' e0' e1' : List (BitVec 64)) (hu : u.length = 2 ^ n) (he0 : e0.length = 2 ^ n) (he1 : e1.length = 2 ^ n)
    (hu' : u'.length = 2 ^ n) (he0' : e0'.length = 2 ^ n) (he1' : e1'.length = 2 ^ n)
    (hnoise : ∀ n1 n2 : List (BitVec 64), n1.length = 2 ^ n → n2.length = 2 ^ n →
      cls (2 ^ n) n1 = cls (2 ^ n) e * cls (2 ^ n) u + cls (2 ^ n) e1 - cls (2 ^ n) e0 * cls (2 ^ n) s →
      cls (2 ^ n) n2 = cls (2 ^ n) e * cls (2 ^ n) u' + cls (2 ^ n) e1' - cls (2 ^ n) e0' * cls (2 ^ n) s →
      ∀ e ∈ List.zipWith (· + ·) n1 n2, -(2 ^ 62 : Int) ≤ e.toInt ∧ e.toInt < 2 ^ 62) :
    ∃ pk em ek x otp d, rlwePublicKey (2 ^ n) s mask (some e) = some pk ∧ encodePoly (bitWords m) 1 = some em ∧
      encodePoly (bitWords key) 1 = some ek ∧ rlweEncryptPublic (2 ^ n) em pk u e0 e1 = some x ∧
      rlweEncryptPublic (2 ^ n) ek pk u' e0' e1' = some otp ∧ glweDecryptDecode (recryptOtp x otp) [s] 1 = some d ∧
      decryptOtp d (bitWords key) = some (bitWords m) := by
  obtain ⟨pk, x, n1, a1, a2, a3, a4, a5, a6⟩ := C69_rlwe n s mask e u e0 e1
    (m.map fun b => if b then (1#64 <<< 63) else 0#64) hs hmask he hu he0 he1 (by simp [hm])
  obtain ⟨pk', otp, n2, b1, b2, b3, b4, b5, b6⟩ := C69_rlwe n s mask e u' e0' e1'
    (key.map fun b => if b then (1#64 <<< 63) else 0#64) hs hmask he hu' he0' he1' (by simp [hk])
  rw [a1] at b1
  cases b1
  obtain ⟨d, d1, _, d3⟩ := C63_otp n 1 x otp [s] a3 b3 ⟨rfl, by simpa using hs⟩ m key hm hk _ _ n1 n2
    (encode_bits m) (encode_bits key) a4 b4 a5 b5 (hnoise n1 n2 a4 b4 a6 b6)
  exact ⟨pk, _, _, x, otp, d, a1, encode_bits m, encode_bits key, a2, b2, d1, d3⟩

/-- A concrete run with non-zero noise everywhere: degree 2, message `[1, 0]`, pad `[1, 1]`. -/
example : ((rlwePublicKey 2 [1#64, 1] [12345, 678] (some [3, -2])).bind fun pk =>
    (rlweEncryptPublic 2 [1#64 <<< 63, 0] pk [1, 0] [2, 1] [-1, 5]).bind fun x =>
    (rlweEncryptPublic 2 [1#64 <<< 63, 1#64 <<< 63] pk [0, 1] [1, -3] [4, 4]).bind fun otp =>
    (glweDecryptDecode (recryptOtp x otp) [[1, 1]] 1).bind fun d =>
    (decryptOtp d [1, 1]).map fun p => (d, p)) = some ([0#64, 1], [1#64, 0]) := by decide +kernel

end Spf.Props
