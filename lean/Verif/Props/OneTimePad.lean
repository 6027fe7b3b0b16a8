import Verif.Spec.OneTimePad
import Verif.Props.EncInt
import Verif.Props.Rand
/-!
C118: one-time pads. A pad is made from the generator's outcomes; probabilities are counts of the outcomes (`2 ^ 64` per coefficient).
-/
namespace Spf.Props
open Spf.Spec Spf.Tfhe Spf.CtExec Spf.EncInt Spf.Fluent

/-- the bits of a pad -/
private def padBits (N : Nat) (draws : Fin N → Fin (2 ^ 64)) : List Bool := List.ofFn fun i => decide ((draws i).val % 2 = 1)

private theorem otpKey_bits (N : Nat) (draws : Fin N → Fin (2 ^ 64)) : otpKey N draws = bitWords (padBits N draws) := by
  unfold otpKey padBits bitWords
  rw [List.map_ofFn]
  congr 1
  funext i
  rcases Nat.mod_two_eq_zero_or_one (draws i).val with h | h <;> simp [h]

private theorem otpKey_rand (N : Nat) (draws : Fin N → Fin (2 ^ 64)) : otpKey N draws = lweKeyBinary 64 N draws := by
  unfold otpKey lweKeyBinary generateKey
  congr 1
  funext i
  show _ = binaryTorus 64 (draws i).val
  rw [binaryTorus, fromU64, Nat.mod_eq_of_lt (by have := Nat.mod_lt (draws i).val (show 0 < 2 by omega); omega : (draws i).val % 2 < 2 ^ 64)]

private theorem bitWords_inj {a b : List Bool} (h : bitWords a = bitWords b) : a = b := by
  refine List.map_injective_iff.2 ?_ h
  intro x y
  cases x <;> cases y <;> decide

private theorem bitWords_bits (l : List Bool) : ∀ x ∈ bitWords l, x = 0 ∨ x = 1 := by
  intro x hx
  obtain ⟨b, _, rfl⟩ := List.mem_map.1 hx
  cases b
  · exact Or.inl rfl
  · exact Or.inr rfl

private theorem xor_solve : ∀ (m k t : List Bool), m.length = k.length → m.length = t.length → (List.zipWith (· ^^ ·) m k = t ↔ k = List.zipWith (· ^^ ·) m t)
  | [], [], [], _, _ => by simp
  | a :: m, b :: k, c :: t, h1, h2 => by
    have := xor_solve m k t (by simpa using h1) (by simpa using h2)
    simp only [List.zipWith_cons_cons, List.cons.injEq, this]
    cases a <;> cases b <;> cases c <;> simp

private theorem bitsInt_inj {sg : Fluent.Sign} {a b : List Bool} (hl : a.length = b.length) (h : bitsInt sg a = bitsInt sg b) : a = b := by
  cases sg with
  | unsigned => exact valLE_inj hl (by simpa [bitsInt] using h)
  | signed =>
    rcases Nat.eq_zero_or_pos a.length with h0 | h0
    · have ha := List.length_eq_zero_iff.1 h0
      have hb := List.length_eq_zero_iff.1 (hl.symm.trans h0)
      rw [ha, hb]
    · simp only [bitsInt] at h
      rw [Cpu.valSigned_twos a h0, Cpu.valSigned_twos b (hl ▸ h0), ← hl] at h
      have ha := valLE_lt a
      have hb := valLE_lt b
      rw [← hl] at hb
      refine valLE_inj hl ?_
      have hp : 2 ^ a.length = 2 * 2 ^ (a.length - 1) := by rw [← pow_succ']; congr 1; omega
      unfold twos at h
      have hp' : ((2 : Int) ^ a.length) = ((2 ^ a.length : Nat) : Int) := by push_cast; rfl
      generalize 2 ^ a.length = M at *
      generalize 2 ^ (a.length - 1) = H at *
      split at h <;> split at h <;> omega

/-- **C118, uniform pads.** Of the `2 ^ (64 N)` outcomes of the generator every pad of `N` bits has equally many, and nothing but bits comes out. -/
theorem C118_pad (N : Nat) (key : List Bool) (hk : key.length = N) :
    (Finset.univ.filter fun draws : Fin N → Fin (2 ^ 64) => otpKey N draws = bitWords key).card = (2 ^ 63) ^ N ∧
    ∀ draws : Fin N → Fin (2 ^ 64), ∃ key' : List Bool, key'.length = N ∧ otpKey N draws = bitWords key' := by
  refine ⟨?_, fun draws => ⟨padBits N draws, by simp [padBits], otpKey_bits N draws⟩⟩
  simp only [otpKey_rand]
  rw [C113_key_binary 64 N (by omega) (bitWords key) (by simp [bitWords, hk]), if_pos (bitWords_bits key)]

private theorem view_ok {n v : Nat} {P : EvalParams} (hP : ParamsOk 64 n v P) {ν : NoiseLevels} {s : List Bool} {s1 : List (BitVec 64)} (hs : SecretOk P n ν s [s1])
    {E : Nat} {mask e : List (BitVec 64)} (hk : PkOk P.degree E mask e) (hE : pkNoise P.degree E < 2 ^ 61) :
    ∃ pk, rlwePublicKey P.degree s1 mask (some e) = some pk ∧ ∀ (sg : Fluent.Sign) (w : Nat) (x : BitVec 128), Fits sg w x → w < P.degree →
      ∀ d d' : PkDraws 64, PkDrawsOk P.degree E d → PkDrawsOk P.degree E d' →
      ∃ c, packedEncrypt P pk sg x w d = some c ∧ ∃ bs : List Bool, bs.length = w ∧ bitsInt sg bs = intOf sg x ∧ ∀ draws,
        committeeView P pk [s1] c d' draws = some (w, bitWords (List.zipWith (· ^^ ·) (bs ++ List.replicate (P.degree - w) false) (padBits P.degree draws))) ∧
        padHolderView P pk [s1] sg c d' draws = some x := by
  obtain ⟨pk, p1, p2⟩ := C109_recrypted hP hs hk hE
  refine ⟨pk, p1, fun sg w x hx hw d d' hd hd' => ?_⟩
  obtain ⟨c0, _, _, q1, _, _, ⟨bs0, r1, r2, _⟩, _⟩ := p2 sg w x hx hw (padBits P.degree fun _ => 0) (by simp [padBits]) d d' hd hd'
  refine ⟨c0, q1, bs0, r1, r2, fun draws => ?_⟩
  obtain ⟨c, otp, r, a1, a2, a3, ⟨bs, b1, b2, b3⟩, a4⟩ := p2 sg w x hx hw (padBits P.degree draws) (by simp [padBits]) d d' hd hd'
  rw [q1] at a1
  cases a1
  have hb : bs = bs0 := bitsInt_inj (by rw [b1, r1]) (by rw [b2, r2])
  subst hb
  have hg : generateOneTimePad P pk draws d' = some (otp, bitWords (padBits P.degree draws)) := by
    rw [generateOneTimePad, otpKey_bits, a2]
  refine ⟨?_, ?_⟩
  · rw [committeeView, hg, Option.bind_some, a3, b3]
  · rw [padHolderView, hg, Option.bind_some, a3, Option.bind_some]
    exact a4

/-- **C118, perfect secrecy.** A client encrypts an integer `x` of `w` bits and it is recrypted with a fresh pad. For every sequence `t` of bits (one per coefficient), the party that removes the outer encryption
sees exactly `t` in `2 ^ (63 N)` of the `2 ^ (64 N)` outcomes of the generator that made the pad — the same number for every integer, so that the view says nothing about `x` but its public bit length — while the
holder of the secret pad recovers `x` for every outcome. For every client draw (`d`) and every noise of the pad's encryption (`d'`) below an eighth of the torus. -/
theorem C118_secret {n v : Nat} {P : EvalParams} (hP : ParamsOk 64 n v P) {ν : NoiseLevels} {s : List Bool} {s1 : List (BitVec 64)} (hs : SecretOk P n ν s [s1])
    {E : Nat} {mask e : List (BitVec 64)} (hk : PkOk P.degree E mask e) (hE : pkNoise P.degree E < 2 ^ 61) :
    ∃ pk, rlwePublicKey P.degree s1 mask (some e) = some pk ∧ ∀ (sg : Fluent.Sign) (w : Nat) (x : BitVec 128), Fits sg w x → w < P.degree →
      ∀ d d' : PkDraws 64, PkDrawsOk P.degree E d → PkDrawsOk P.degree E d' →
      ∃ c, packedEncrypt P pk sg x w d = some c ∧
        (∀ t : List Bool, t.length = P.degree → (Finset.univ.filter fun draws => committeeView P pk [s1] c d' draws = some (w, bitWords t)).card = (2 ^ 63) ^ P.degree) ∧
        (∀ draws, ∃ t : List Bool, t.length = P.degree ∧ committeeView P pk [s1] c d' draws = some (w, bitWords t)) ∧
        ∀ draws, padHolderView P pk [s1] sg c d' draws = some x := by
  obtain ⟨pk, p1, p2⟩ := view_ok hP hs hk hE
  refine ⟨pk, p1, fun sg w x hx hw d d' hd hd' => ?_⟩
  obtain ⟨c, c1, bs, b1, _, b3⟩ := p2 sg w x hx hw d d' hd hd'
  have hlen : (bs ++ List.replicate (P.degree - w) false).length = P.degree := by simp [b1]; omega
  refine ⟨c, c1, fun t ht => ?_, fun draws => ⟨_, ?_, (b3 draws).1⟩, fun draws => (b3 draws).2⟩
  · have hkey := (C118_pad P.degree (List.zipWith (· ^^ ·) (bs ++ List.replicate (P.degree - w) false) t) (by rw [List.length_zipWith, hlen, ht, Nat.min_self])).1
    rw [← hkey]
    congr 1
    apply Finset.filter_congr
    intro draws _
    rw [(b3 draws).1, otpKey_bits, Option.some.injEq, Prod.mk.injEq]
    constructor
    · rintro ⟨_, h⟩
      rw [(xor_solve _ _ _ (by simp [hlen, padBits]) (by rw [hlen, ht])).1 (bitWords_inj h)]
    · intro h
      exact ⟨rfl, by rw [(xor_solve _ _ _ (by simp [hlen, padBits]) (by rw [hlen, ht])).2 (bitWords_inj h)]⟩
  · rw [List.length_zipWith, hlen]; simp [padBits]

private theorem xor_cancel : ∀ (m m' k : List Bool), m.length = k.length → m'.length = k.length →
    List.zipWith (· ^^ ·) (List.zipWith (· ^^ ·) m k) (List.zipWith (· ^^ ·) m' k) = List.zipWith (· ^^ ·) m m'
  | [], [], [], _, _ => rfl
  | [], _ :: _, [], _, h => by simp at h
  | _ :: _, [], [], h, _ => by simp at h
  | [], _, _ :: _, h, _ => by simp at h
  | _ :: _, [], _ :: _, _, h => by simp at h
  | a :: m, b :: m', c :: k, h1, h2 => by
    have := xor_cancel m m' k (by simpa using h1) (by simpa using h2)
    simp only [List.zipWith_cons_cons, this]
    cases a <;> cases b <;> cases c <;> rfl

/-- **C118, reused pads (violated).** If one pad recrypts two integers, the party that removes the outer encryption sees two sequences of bits whose exclusive-or is the exclusive-or of the two integers' bits,
whatever the pad: the documentation's "must never recrypt more than one message" is necessary, and nothing in the types or at run time enforces it. -/
theorem C118_reuse_violated {n v : Nat} {P : EvalParams} (hP : ParamsOk 64 n v P) {ν : NoiseLevels} {s : List Bool} {s1 : List (BitVec 64)} (hs : SecretOk P n ν s [s1])
    {E : Nat} {mask e : List (BitVec 64)} (hk : PkOk P.degree E mask e) (hE : pkNoise P.degree E < 2 ^ 61) :
    ∃ pk, rlwePublicKey P.degree s1 mask (some e) = some pk ∧ ∀ (sg : Fluent.Sign) (w : Nat) (x y : BitVec 128), Fits sg w x → Fits sg w y → w < P.degree →
      ∀ d1 d2 d' : PkDraws 64, PkDrawsOk P.degree E d1 → PkDrawsOk P.degree E d2 → PkDrawsOk P.degree E d' →
      ∃ c1 c2 bx bY, packedEncrypt P pk sg x w d1 = some c1 ∧ packedEncrypt P pk sg y w d2 = some c2 ∧
        bx.length = w ∧ bitsInt sg bx = intOf sg x ∧ bY.length = w ∧ bitsInt sg bY = intOf sg y ∧
        ∀ draws, ∃ t1 t2, committeeView P pk [s1] c1 d' draws = some (w, bitWords t1) ∧ committeeView P pk [s1] c2 d' draws = some (w, bitWords t2) ∧
          (List.zipWith (· ^^ ·) t1 t2).take w = List.zipWith (· ^^ ·) bx bY := by
  obtain ⟨pk, p1, p2⟩ := view_ok hP hs hk hE
  refine ⟨pk, p1, fun sg w x y hx hy hw d1 d2 d' hd1 hd2 hd' => ?_⟩
  obtain ⟨c1, e1, bx, x1, x2, x3⟩ := p2 sg w x hx hw d1 d' hd1 hd'
  obtain ⟨c2, e2, bY, y1, y2, y3⟩ := p2 sg w y hy hw d2 d' hd2 hd'
  refine ⟨c1, c2, bx, bY, e1, e2, x1, x2, y1, y2, fun draws => ⟨_, _, (x3 draws).1, (y3 draws).1, ?_⟩⟩
  rw [xor_cancel _ _ _ (by simp [x1, padBits]; omega) (by simp [y1, padBits]; omega), List.zipWith_append (by rw [x1, y1]), List.take_left' (by simp [x1, y1])]

/-- non-vacuity: the signed integer -5 and the signed integer 7 in 8 bits, with the public key and draws of the examples of C109: every view of 16 bits has `2 ^ (63 · 16)` outcomes for both -/
example : ∃ pk c c', rlwePublicKey 16 (exCtSk.headD []) exPkMask (some exPkNoise) = some pk ∧ packedEncrypt exCtParams pk .signed (BitVec.ofInt 128 (-5)) 8 exPkDraws = some c ∧
    packedEncrypt exCtParams pk .signed 7#128 8 exPkDraws = some c' ∧
    ∀ t : List Bool, t.length = 16 →
      (Finset.univ.filter fun draws => committeeView exCtParams pk exCtSk c exPkDraws draws = some (8, bitWords t)).card =
      (Finset.univ.filter fun draws => committeeView exCtParams pk exCtSk c' exPkDraws draws = some (8, bitWords t)).card := by
  obtain ⟨pk, p1, p2⟩ := C118_secret (P := exCtParams) exCtParams_ok exCtSecret_ok exPk_ok (by decide)
  obtain ⟨c, c1, c2, _⟩ := p2 .signed 8 (BitVec.ofInt 128 (-5)) ⟨by decide, by decide, by decide, by decide⟩ (by decide) exPkDraws exPkDraws exPkDraws_ok exPkDraws_ok
  obtain ⟨c', c1', c2', _⟩ := p2 .signed 8 7#128 ⟨by decide, by decide, by decide, by decide⟩ (by decide) exPkDraws exPkDraws exPkDraws_ok exPkDraws_ok
  exact ⟨pk, c, c', p1, c1, c1', fun t ht => (c2 t ht).trans (c2' t ht).symm⟩

example : otpKey 3 ![6, 9, 2 ^ 64 - 1] = bitWords [false, true, true] := by decide

end Spf.Props
