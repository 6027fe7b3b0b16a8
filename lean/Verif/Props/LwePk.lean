import Verif.Model.LwePk
import Verif.Spec.Noise
import Verif.Props.Glwe
import Verif.Props.Pbs
/-! C96: encryption under an LWE public key. -/
namespace Spf.Props
open Spf.Tfhe Spf.Spec
variable {W : Nat}

theorem encode_zero_one (h : 1 < W) : encode (0 : BitVec W) 1 = some 0 := by
  rw [encode, if_pos h]
  congr 1
  simp [wrapShl]

theorem lwePkLoop_spec (n : Nat) (hn : n ≠ 0) (hW : 1 < W) (sk : List (BitVec W)) (hs : sk.length = n) :
    ∀ ds : List (List (BitVec W) × BitVec W), (∀ d ∈ ds, d.1.length = n) →
      ∃ pk, lwePkLoop n sk ds = some pk ∧
        List.Forall₂ (fun c (d : List (BitVec W) × BitVec W) => c.a = d.1 ∧ c.a.length = n ∧ lweDecrypt n sk c = some d.2) pk ds
  | [], _ => ⟨[], rfl, .nil⟩
  | d :: ds, h => by
    obtain ⟨pk, h1, h2⟩ := lwePkLoop_spec n hn hW sk hs ds (fun x hx => h x (by simp [hx]))
    obtain ⟨c, hc, ha, hd⟩ := C50_lwe n hn ⟨List.replicate n 0, 0⟩ sk d.1 0 d.2 (by simp) hs (h d (by simp))
    refine ⟨c :: pk, ?_, .cons ⟨ha, by rw [ha]; exact h d (by simp), by rw [hd, zero_add]⟩ h2⟩
    rw [lwePkLoop, encode_zero_one hW]
    simp only [Option.bind_eq_bind, Option.bind_some, hc, h1]

/-- C96: the public key is `n` encryptions of zero under the secret key: each decrypts to its own noise. -/
theorem C96_generate (n : Nat) (hn : n ≠ 0) (hW : 1 < W) (sk : List (BitVec W)) (hs : sk.length = n)
    (draws : List (List (BitVec W) × BitVec W)) (hd : draws.length = n) (hm : ∀ d ∈ draws, d.1.length = n) :
    ∃ pk, lwePkGenerate n sk draws = some pk ∧ pk.length = n ∧
      List.Forall₂ (fun c (d : List (BitVec W) × BitVec W) => c.a = d.1 ∧ lweDecrypt n sk c = some d.2) pk draws := by
  obtain ⟨pk, h1, h2⟩ := lwePkLoop_spec n hn hW sk hs draws hm
  refine ⟨pk, by rw [lwePkGenerate, if_pos ⟨hn, hs, hd⟩, h1], by rw [h2.length_eq, hd], h2.imp ?_⟩
  rintro c d ⟨h, _, h'⟩
  exact ⟨h, h'⟩

theorem lwePkSum_spec (n : Nat) (hn : n ≠ 0) (sk : List (BitVec W)) : ∀ (pk : List (Lwe (BitVec W))) (es rs : List (BitVec W))
    (acc : Lwe (BitVec W)), List.Forall₂ (fun c e => c.a.length = n ∧ lweDecrypt n sk c = some e) pk es →
    rs.length = pk.length → acc.a.length = n →
    ∃ out, lwePkSum n pk rs acc = some out ∧ out.a.length = n ∧
      out.b - dotAcc out.a sk 0 = acc.b - dotAcc acc.a sk 0 + (List.zipWith (· * ·) rs es).sum ∧
      (∀ i < n, out.a.getD i 0 = acc.a.getD i 0 + (List.zipWith (fun r (z : Lwe (BitVec W)) => z.a.getD i 0 * r) rs pk).sum) ∧
      out.b = acc.b + (List.zipWith (fun r (z : Lwe (BitVec W)) => z.b * r) rs pk).sum
  | [], [], rs, acc, _, hr, ha => by
    obtain rfl := List.length_eq_zero_iff.1 hr
    exact ⟨acc, rfl, ha, by simp, by simp, by simp⟩
  | z :: pk, e :: es, r :: rs, acc, h, hr, ha => by
    cases h with
    | cons h1 h2 =>
      obtain ⟨out, ho, hl, hp, hx, hb⟩ := lwePkSum_spec n hn sk pk es rs
        ⟨zipAssign (fun c a => c + a * r) acc.a z.a, acc.b + z.b * r⟩ h2 (by simpa using hr)
        (by rw [zipAssign_eq _ _ _ (by rw [ha, h1.1])]; simp [ha, h1.1])
      have hz : z.b - dotAcc z.a sk 0 = e := by
        have := h1.2
        rw [lweDecrypt, if_pos ⟨hn, h1.1⟩] at this
        exact Option.some.inj this
      refine ⟨out, ?_, hl, ?_, ?_, ?_⟩
      · rw [lwePkSum, if_pos ⟨h1.1, ha⟩]; exact ho
      · rw [hp]
        simp only
        rw [dotAcc_mad r _ _ _ (by rw [ha, h1.1]), List.zipWith_cons_cons, List.sum_cons, ← hz]
        ring
      · intro i hi
        rw [hx i hi]
        simp only
        rw [zipAssign_eq _ _ _ (by rw [ha, h1.1]), List.zipWith_cons_cons, List.sum_cons, ← add_assoc]
        congr 1
        have i1 : i < acc.a.length := by omega
        have i2 : i < z.a.length := by rw [h1.1]; exact hi
        simp [List.getD, i1, i2]
      · rw [hb]
        simp only
        rw [List.zipWith_cons_cons, List.sum_cons]
        ring
  | [], _ :: _, _, _, h, _, _ => by cases h
  | _ :: _, [], _, _, h, _, _ => by cases h
  | _ :: _, _ :: _, [], _, _, h, _ => by simp at h

/-- C96, exactly: encryption under a generated public key succeeds for every message, and what the secret key decrypts
it to is the encoded message plus the selected noises of the key, minus the product of the mask noise with the secret
key, plus the body noise. The returned randomness is what was added: the ciphertext is the selected sum of the key's
ciphertexts, plus the returned noise ciphertext, plus the encoded message in the body. -/
theorem C96_encrypt (n p : Nat) (hn : n ≠ 0) (hW : 1 < W) (hp : p < W) (sk : List (BitVec W)) (hs : sk.length = n)
    (draws : List (List (BitVec W) × BitVec W)) (hd : draws.length = n) (hm : ∀ d ∈ draws, d.1.length = n)
    (msg : BitVec W) (rs ea : List (BitVec W)) (eb : BitVec W) (hr : rs.length = n) (hea : ea.length = n) :
    ∃ pk m ct rand, lwePkGenerate n sk draws = some pk ∧ encode msg p = some m ∧
      lwePkEncrypt n pk msg p rs ea eb = some (ct, rand) ∧
      lweDecrypt n sk ct = some (m + (List.zipWith (· * ·) rs (draws.map Prod.snd)).sum - dotAcc ea sk 0 + eb) ∧
      rand.r = rs ∧
      (∀ i < n, ct.a.getD i 0 = (List.zipWith (fun r (z : Lwe (BitVec W)) => z.a.getD i 0 * r) rand.r pk).sum + rand.e.a.getD i 0) ∧
      ct.b = (List.zipWith (fun r (z : Lwe (BitVec W)) => z.b * r) rand.r pk).sum + m + rand.e.b := by
  obtain ⟨pk, h1, h2⟩ := lwePkLoop_spec n hn hW sk hs draws hm
  have hpl : pk.length = n := by rw [h2.length_eq, hd]
  obtain ⟨m, hme⟩ : ∃ m, encode msg p = some m := ⟨_, by rw [encode, if_pos hp]⟩
  have h2' : List.Forall₂ (fun c e => c.a.length = n ∧ lweDecrypt n sk c = some e) pk (draws.map Prod.snd) := by
    rw [List.forall₂_map_right_iff]
    exact h2.imp fun _ _ h => ⟨h.2.1, h.2.2⟩
  obtain ⟨acc, ho, hl, hph, hx, hb⟩ := lwePkSum_spec n hn sk pk _ rs ⟨List.replicate n 0, 0⟩ h2' (by rw [hr, hpl]) (by simp)
  have hla : acc.a.length = ea.length := by rw [hl, hea]
  refine ⟨pk, m, ⟨zipAssign (· + ·) acc.a ea, acc.b + m + eb⟩, ⟨rs, ⟨ea, eb⟩⟩, ?_, hme, ?_, ?_, rfl, ?_, ?_⟩
  · rw [lwePkGenerate, if_pos ⟨hn, hs, hd⟩, h1]
  · rw [lwePkEncrypt, if_pos ⟨hn, hpl, hp⟩, hme, ho]
    rfl
  · rw [lweDecrypt, if_pos ⟨hn, by
      simp only
      rw [zipAssign_eq _ _ _ hla]; simp [hl, hea]⟩]
    simp only
    rw [dotAcc_add _ _ _ hla]
    have hz : dotAcc (List.replicate n (0 : BitVec W)) sk 0 = 0 := by
      have := dotAcc_zero (List.replicate n (0 : BitVec W)) sk
      simpa using this
    rw [hz] at hph
    congr 1
    have : acc.b = dotAcc acc.a sk 0 + (List.zipWith (· * ·) rs (draws.map Prod.snd)).sum := by
      rw [sub_zero, zero_add] at hph
      rw [← hph]; ring
    rw [this]; ring
  · intro i hi
    have i1 : i < acc.a.length := by omega
    have i2 : i < ea.length := by omega
    have := hx i hi
    simp only
    rw [zipAssign_eq _ _ _ hla]
    have e0 : (List.replicate n (0 : BitVec W)).getD i 0 = 0 := by simp [List.getD, hi]
    rw [e0, zero_add] at this
    rw [← this]
    simp [List.getD, i1, i2]
  · rw [hb, zero_add]

/-! ### Decoding -/

theorem near_sum_sel {B : Nat} : ∀ (rs es : List (BitVec W)), (∀ r ∈ rs, r = 0 ∨ r = 1) → (∀ e ∈ es, Near B e 0) →
    Near (rs.length * B) (List.zipWith (· * ·) rs es).sum 0
  | [], _, _, _ => by simpa using Near.refl (0 : BitVec W)
  | _ :: _, [], _, _ => Near.mono (by simpa using Near.refl (0 : BitVec W)) (Nat.zero_le _)
  | r :: rs, e :: es, hr, he => by
    have ih := near_sum_sel rs es (fun x hx => hr x (by simp [hx])) (fun x hx => he x (by simp [hx]))
    rw [List.zipWith_cons_cons, List.sum_cons]
    have h1 : Near B (r * e) 0 := by
      rcases hr r (by simp) with rfl | rfl
      · rw [zero_mul]; exact Near.mono (Near.refl _) (Nat.zero_le _)
      · rw [one_mul]; exact he e (by simp)
    have := Near.addN h1 ih
    rw [add_zero] at this
    refine Near.mono this ?_
    rw [List.length_cons]; ring_nf; rfl

theorem near_neg {B : Nat} {x y : BitVec W} (h : Near B x y) : Near B (-x) (-y) := by
  obtain ⟨e, he, rfl⟩ := h
  refine ⟨-e, by rwa [Int.natAbs_neg], ?_⟩
  rw [neg_add, BitVec.ofInt_neg]

theorem near_zero_mul {A B : Nat} {x y : BitVec W} (hx : Near A x 0) (hy : Near B y 0) : Near (A * B) (x * y) 0 := by
  obtain ⟨e, he, rfl⟩ := hx
  obtain ⟨f, hf, rfl⟩ := hy
  refine ⟨e * f, by rw [Int.natAbs_mul]; exact Nat.mul_le_mul he hf, ?_⟩
  rw [zero_add, zero_add, zero_add, BitVec.ofInt_mul]

theorem near_dot {B S : Nat} : ∀ (ea sk : List (BitVec W)), (∀ e ∈ ea, Near B e 0) → (∀ s ∈ sk, Near S s 0) →
    Near (ea.length * (B * S)) (dotAcc ea sk 0) 0
  | [], _, _, _ => by simpa [dotAcc] using Near.refl (0 : BitVec W)
  | _ :: _, [], _, _ => Near.mono (by simpa [dotAcc] using Near.refl (0 : BitVec W)) (Nat.zero_le _)
  | a :: ea, s :: sk, ha, hs => by
    have ih := near_dot ea sk (fun x hx => ha x (by simp [hx])) (fun x hx => hs x (by simp [hx]))
    rw [dotAcc_cons]
    have := Near.addN (near_zero_mul (ha a (by simp)) (hs s (by simp))) ih
    rw [add_zero] at this
    refine Near.mono this ?_
    rw [List.length_cons]; ring_nf; rfl

/-- C96: a message encrypted under a public key is decrypted by the secret key, for every key with elements of size at
most `S`, every choice of masks and selectors and all noises of size at most `B`, as long as the worst-case noise
`n B + n B S + B` is below half an encoding step. -/
theorem C96_decrypts (n p B S : Nat) (hn : n ≠ 0) (hp0 : 0 < p) (hp : p < W) (hp32 : p < 32)
    (sk : List (BitVec W)) (hs : sk.length = n) (hS : ∀ s ∈ sk, Near S s 0)
    (draws : List (List (BitVec W) × BitVec W)) (hd : draws.length = n) (hm : ∀ d ∈ draws, d.1.length = n)
    (hB : ∀ d ∈ draws, Near B d.2 0) (msg : Nat) (hmsg : msg < 2 ^ p) (rs ea : List (BitVec W)) (eb : BitVec W)
    (hr : rs.length = n) (hr01 : ∀ r ∈ rs, r = 0 ∨ r = 1) (hea : ea.length = n) (hea' : ∀ e ∈ ea, Near B e 0)
    (heb : Near B eb 0) (hfit : n * B + n * (B * S) + B < 2 ^ (W - p - 1)) :
    ∃ pk ct rand t, lwePkGenerate n sk draws = some pk ∧
      lwePkEncrypt n pk (BitVec.ofNat W msg) p rs ea eb = some (ct, rand) ∧ lweDecrypt n sk ct = some t ∧
      decode t p = some (BitVec.ofNat W msg) := by
  obtain ⟨pk, m, ct, rand, h1, h2, h3, h4, _⟩ := C96_encrypt n p hn (by omega) hp sk hs draws hd hm (BitVec.ofNat W msg) rs ea eb hr hea
  refine ⟨pk, ct, rand, _, h1, h3, h4, ?_⟩
  have a1 := near_sum_sel rs (draws.map Prod.snd) hr01 (by
    intro e he
    obtain ⟨d, hd', rfl⟩ := List.mem_map.1 he
    exact hB d hd')
  have a2 := near_dot ea sk hea' hS
  rw [hr] at a1
  rw [hea] at a2
  have a3 := Near.addN (Near.addN (Near.addN (Near.refl m) a1) (near_neg a2)) heb
  simp only [neg_zero, add_zero, zero_add] at a3
  rw [← sub_eq_add_neg] at a3
  obtain ⟨e, he, heq⟩ := a3
  have hcast : ((2 ^ (W - p - 1) : Nat) : Int) = 2 ^ (W - p - 1) := by push_cast; rfl
  obtain ⟨c, hc, hdec⟩ := C44_decode_encode_partial W p hp0 hp hp32 msg hmsg e (by omega) (by omega)
  rw [h2] at hc
  obtain rfl := Option.some.inj hc
  rw [heq]
  exact hdec

/-- A concrete key of dimension 2 over 16 bits, with a non-binary secret key, both ciphertexts selected. -/
example : ∃ pk ct rand, lwePkGenerate 2 [1, -1] [([7, 8], 3), ([500, 9], -2)] = some pk ∧
    lwePkEncrypt 2 pk (5#16) 4 [1, 1] [2, -1] (-3) = some (ct, rand) ∧
    (lweDecrypt 2 [1, -1] ct).bind (fun t => decode t 4) = some 5 := by
  refine ⟨_, _, _, rfl, rfl, ?_⟩
  decide +kernel

end Spf.Props
