import Verif.Spec.EncInt
import Verif.Props.CtExec
import Verif.Props.PlainInt
import Verif.Props.GlevDec
import Verif.Props.Pfks
import Verif.Props.Rlwe
/-! C109: encrypted integers, as clients make and open them. -/
namespace Spf.Props
open Spf.Spec Spf.Fhe Spf.Fluent Spf.Tfhe Spf.CtExec Spf.EncInt
variable {W : Nat}

theorem toBits_ok {sg : Sign} {n : Nat} {v : BitVec 128} (h : Fits sg n v) :
    ∃ bs, inBounds sg v n = some () ∧ toBits sg v n = some bs ∧ bs.length = n ∧ bitsInt sg bs = intOf sg v ∧ fromBits sg bs = some v := by
  cases sg with
  | unsigned =>
    obtain ⟨bs, h1, h2, h3, h4⟩ := C21_unsigned v n h.1 h.2
    exact ⟨bs, (C21_unsigned_bounds v n h.1).2 h.2, h1, h2, by simp only [bitsInt, intOf]; exact_mod_cast h3, h4⟩
  | signed =>
    obtain ⟨h0, hn, hlo, hhi⟩ := h
    obtain ⟨bs, h1, h2, h3, h4⟩ := C21_signed v n h0 (by omega) hlo hhi
    exact ⟨bs, (C21_signed_bounds_partial v n h0 hn).2 ⟨hlo, hhi⟩, h1, h2, h3, h4⟩

/-- what is decoded from bits -/
theorem fromBits_value {sg : Sign} {bs : List Bool} (h0 : 0 < bs.length) (h : bs.length ≤ 128) : ∃ v, fromBits sg bs = some v ∧ intOf sg v = bitsInt sg bs := by
  cases sg with
  | unsigned => obtain ⟨v, h1, h2⟩ := C21_unsigned_decode bs h; exact ⟨v, h1, by simp only [bitsInt, intOf]; exact_mod_cast h2⟩
  | signed => exact C21_signed_decode bs h0 h

/-- a public-key encryption of a polynomial with bit coefficients -/
theorem rlwe_held {n v : Nat} {P : EvalParams} (hP : ParamsOk W n v P) {ν : NoiseLevels} {s : List Bool} {s1 : List (BitVec W)} (hs : SecretOk P n ν s [s1])
    {E : Nat} {mask e : List (BitVec W)} (hk : PkOk P.degree E mask e) :
    ∃ pk, rlwePublicKey P.degree s1 mask (some e) = some pk ∧ ∀ (p : Nat → Bool) (d : PkDraws W), PkDrawsOk P.degree E d →
      ∃ ct, clientEncRlwe P pk ((List.range P.degree).map fun i => if p i then 1 else 0) d = some ct ∧ Held P n (bitKey W s) [s1] (pkNoise P.degree E) (.glwe1 ct) (.glwe1 p) := by
  have hsize : P.glweSize = 1 := hs.key.1.symm
  have hW : 1 < W := by have := hP.levels; omega
  have hl1 : s1.length = 2 ^ n := hs.key.2 s1 (by simp)
  have hkey : ∀ x ∈ s1, x.toInt.natAbs ≤ 1 := fun x hx => Spf.Props.binary_bound hW (hs.bin s1 (by simp) x hx)
  have hz : (List.replicate (2 ^ n) (0 : BitVec W)).length = 2 ^ n := by simp
  have hm := hk.mask
  have hn := hk.noise
  rw [hP.degree] at hm hn ⊢
  obtain ⟨pk, _, _, p1, _⟩ := C69_rlwe n s1 mask e _ _ _ _ hl1 hm hn.1 hz hz hz hz
  refine ⟨pk, p1, fun p d hd => ?_⟩
  obtain ⟨hu, h0, h1⟩ := hd
  obtain ⟨pk', ct, noise, c1, c2, c3, c4, c5, c6⟩ := C69_rlwe n s1 mask e d.u d.e0 d.e1 (bitPoly W (2 ^ n) p) hl1 hm hn.1 hu.1 h0.1 h1.1 (bitPoly_length _ _)
  obtain rfl : pk = pk' := Option.some.inj (p1.symm.trans c1)
  refine ⟨ct, ?_, (holds_iff hP hs.key (.glwe1 ct) (.glwe1 p)).1 ⟨?_, _, c5, ?_⟩⟩
  · rw [clientEncRlwe, if_pos hsize, encodePoly_bits hW, hP.degree]
    exact c2
  · rw [hsize, hP.degree]; exact c3
  · rw [hP.degree]
    refine nearPoly_of_small (N := 2 ^ n) (by simp [bitPoly_length, c4]) (bitPoly_length _ _) ?_
    rw [cls_zipWith_add _ _ _ (by simp [bitPoly_length, c4]), add_sub_cancel_left, c6]
    have := rlwe_noise_small (small_of_bound hn.1 hn.2) (small_of_bound hu.1 fun x hx => Spf.Props.binary_bound hW (hu.2 x hx)) (small_of_bound h0.1 h0.2) (small_of_bound h1.1 h1.2) (small_of_bound hl1 hkey)
    rw [Nat.mul_one] at this
    exact this

/-- the polynomial of a packed integer -/
theorem packed_poly {N : Nat} {bs : List Bool} :
    (bs.map (fun (b : Bool) => if b then (1 : BitVec W) else 0) ++ List.replicate N 0).take N = (List.range N).map fun i => if bs.getD i false then 1 else 0 := by
  apply List.ext_getElem
  · simp
  · intro i h1 h2
    have hi : i < N := by simpa using h2
    rw [List.getElem_take, List.getElem_map, List.getElem_range, List.getD_eq_getElem?_getD]
    by_cases hb : i < bs.length
    · rw [List.getElem_append_left (by simpa using hb), List.getElem_map, List.getElem?_eq_getElem hb]; rfl
    · rw [List.getElem_append_right (by simpa using hb), List.getElem_replicate, List.getElem?_eq_none (by omega)]; rfl

theorem one_ne_zero_bv (hW : 0 < W) : ((0 : BitVec W) == 1) = false := by
  rw [beq_eq_false_iff_ne]
  intro h
  have h2 : (0 : Nat) = 1 % 2 ^ W := by
    have := congrArg BitVec.toNat h
    rw [show (1 : BitVec W) = BitVec.ofNat W 1 from rfl, BitVec.toNat_ofNat] at this
    simpa using this
  rw [Nat.mod_eq_of_lt (Nat.one_lt_two_pow (by omega))] at h2
  cases h2

theorem packed_bits (hW : 0 < W) {N : Nat} {bs : List Bool} (h : bs.length ≤ N) :
    (((List.range N).map fun i => if bs.getD i false then (1 : BitVec W) else 0).map fun c => c == 1).take bs.length = bs := by
  apply List.ext_getElem
  · simp; omega
  · intro i h1 h2
    rw [List.getElem_take, List.getElem_map, List.getElem_map, List.getElem_range, List.getD_eq_getElem?_getD, List.getElem?_eq_getElem h2]
    cases bs[i]
    · exact one_ne_zero_bv hW
    · exact beq_self_eq_true _

/-- **C109, packed integers.** Generate a public key. Every integer that fits in `n` bits, fewer than the polynomial has coefficients, can be encrypted as a packed integer; the ciphertext holds the bits of the integer
in its coefficients with noise at most `pkNoise` and (if that is below a quarter of the torus) decrypts to the integer — for all draws. -/
theorem C109_packed {n v : Nat} {P : EvalParams} (hP : ParamsOk W n v P) {ν : NoiseLevels} {s : List Bool} {s1 : List (BitVec W)} (hs : SecretOk P n ν s [s1])
    {E : Nat} {mask e : List (BitVec W)} (hk : PkOk P.degree E mask e) :
    ∃ pk, rlwePublicKey P.degree s1 mask (some e) = some pk ∧ ∀ (sg : Sign) (w : Nat) (x : BitVec 128), Fits sg w x → w < P.degree → ∀ d : PkDraws W, PkDrawsOk P.degree E d →
      ∃ c, packedEncrypt P pk sg x w d = some c ∧ c.bitLen = w ∧
        (∃ bs : List Bool, bs.length = w ∧ bitsInt sg bs = intOf sg x ∧ CtHolds P (bitKey W s) [s1] (pkNoise P.degree E) (.glwe1 c.ct) (.glwe1 fun i => bs.getD i false)) ∧
        (pkNoise P.degree E < 2 ^ (W - 2) → packedDecrypt P [s1] sg c = some x) := by
  have hW : 1 < W := by have := hP.levels; omega
  obtain ⟨pk, p1, p2⟩ := rlwe_held hP hs hk
  refine ⟨pk, p1, fun sg w x hx hw d hd => ?_⟩
  obtain ⟨bs, b1, b2, b3, b4, b5⟩ := toBits_ok hx
  obtain ⟨ct, c1, c2⟩ := p2 (fun i => bs.getD i false) d hd
  refine ⟨⟨w, ct⟩, ?_, rfl, ⟨bs, b3, b4, (holds_iff hP hs.key _ _).2 c2⟩, fun hB => ?_⟩
  · rw [packedEncrypt, b1, packedEncode, if_pos hw, b2]
    simp only
    rw [packed_poly, c1]
  · have hd := held_decrypts hP hs c2 hB
    rw [packedDecrypt, if_pos hw, show clientDecGlwe [s1] ct = _ from hd]
    simp only
    rw [← b3, packed_bits (by omega) (by omega), b5]

/-- **C109, packed integers out of range** are refused, as are widths that do not fit in the polynomial. -/
theorem C109_packed_refuses (P : EvalParams) (pk : Glwe (BitVec W)) (sg : Sign) (w : Nat) (hw : w ≤ 127) (h1 : 1 ≤ w) (x : BitVec 128) (d : PkDraws W) (h : ¬ (Fits sg w x ∧ w < P.degree)) :
    packedEncrypt P pk sg x w d = none := by
  rw [packedEncrypt]
  cases hb : inBounds sg x w with
  | none => rfl
  | some u =>
    have hf : Fits sg w x := by
      cases sg with
      | unsigned => exact ⟨by omega, (C21_unsigned_bounds x w (by omega)).1 hb⟩
      | signed => exact ⟨h1, hw, (C21_signed_bounds_partial x w h1 hw).1 hb⟩
    have hd : ¬ w < P.degree := fun hd => h ⟨hf, hd⟩
    simp only [packedEncode, if_neg hd]

theorem toBits_low {sg : Sign} {w : Nat} (hw : w ≤ 128) (x : BitVec 128) : toBits sg x w = some ((List.range w).map x.getLsbD) := by
  cases sg
  · exact toBitsU_eq x w hw
  · exact toBitsS_eq x w hw

/-- **C109, trivial packed integers.** Trivial packed encryptions decrypt, under every key, to the low `w` bits of the integer: to the integer itself if it fits. -/
theorem C109_packed_trivial {n v : Nat} {P : EvalParams} (hP : ParamsOk W n v P) (sg : Sign) (w : Nat) (h0 : 0 < w) (h128 : w ≤ 128) (hw : w < P.degree) (x : BitVec 128) :
    ∃ (c : Packed W) (y : BitVec 128), packedTrivial P sg x w = some c ∧ intOf sg y = bitsInt sg ((List.range w).map x.getLsbD) ∧ (Fits sg w x → y = x) ∧
      ∀ (ν : NoiseLevels) (s : List Bool) (sk : List (List (BitVec W))), SecretOk P n ν s sk → packedDecrypt P sk sg c = some y := by
  have hW : 1 < W := by have := hP.levels; omega
  obtain ⟨y, y1, y2⟩ := fromBits_value (sg := sg) (bs := (List.range w).map x.getLsbD) (by simpa using h0) (by simpa using h128)
  let bs := (List.range w).map x.getLsbD
  have hlen : bs.length = w := by simp [bs]
  have hN : 0 < 2 ^ n := Nat.two_pow_pos n
  refine ⟨⟨w, ⟨List.replicate P.glweSize (List.replicate P.degree 0), bitPoly W P.degree fun i => bs.getD i false⟩⟩, y, ?_, y2, fun hf => ?_, fun ν s sk hs => ?_⟩
  · rw [packedTrivial, packedEncode, if_pos hw, toBits_low h128]
    simp only
    rw [packed_poly, encodePoly_bits hW]
    rfl
  · obtain ⟨bs', _, b2, _, _, b5⟩ := toBits_ok hf
    rw [toBits_low h128] at b2
    cases b2
    rw [y1] at b5
    exact Option.some.inj b5
  · have hv : Glwe.valid (R := BitVec W) ⟨List.replicate P.glweSize (List.replicate P.degree 0), bitPoly W P.degree fun i => bs.getD i false⟩ P.glweSize (2 ^ n) := by
      rw [hP.degree]
      refine ⟨by simp, fun p hp => ?_, bitPoly_length _ _⟩
      rw [List.eq_of_mem_replicate hp]; simp
    have hH : Held P n (bitKey W s) sk 0 (.glwe1 ⟨List.replicate P.glweSize (List.replicate P.degree 0), bitPoly W P.degree fun i => bs.getD i false⟩) (.glwe1 fun i => bs.getD i false) := by
      refine ⟨hv, ?_⟩
      have : phG (2 ^ n) sk ⟨List.replicate P.glweSize (List.replicate P.degree 0), bitPoly W P.degree fun i => bs.getD i false⟩ = cls (2 ^ n) (bitPoly W (2 ^ n) fun i => bs.getD i false) := by
        rw [hP.degree, phG]
        simp only
        rw [dotC_zeros, sub_zero]
      rw [this, sub_self]
      exact Tfhe.small_zero
    have hd := held_decrypts hP hs hH (by show 0 < 2 ^ (W - 2); exact Nat.two_pow_pos _)
    rw [packedDecrypt, if_pos hw, show clientDecGlwe sk _ = _ from hd]
    simp only
    have := packed_bits (W := W) (by omega) (bs := bs) (N := P.degree) (by omega)
    rw [hlen] at this
    rw [this]
    exact y1

/-! ### unpacked integers -/

theorem const_poly {n : Nat} {P : EvalParams} (hd : P.degree = 2 ^ n) (b : Bool) : constMsg W P b = some ((List.range P.degree).map fun i => if constPoly b i then (1 : BitVec W) else 0) := by
  have hp := Nat.two_pow_pos n
  obtain ⟨m, hm⟩ : ∃ m, P.degree = m + 1 := ⟨P.degree - 1, by omega⟩
  rw [constMsg, if_neg (by omega), hm, List.range_succ_eq_map, List.map_cons, List.map_map]
  congr 2
  · apply List.ext_getElem
    · simp
    · intro i h1 h2
      rw [List.getElem_replicate, List.getElem_map]
      simp [constPoly]

/-- the bits of a ciphertext that holds a bit -/
theorem decBit_held {n v : Nat} {P : EvalParams} (hP : ParamsOk W n v P) {ν : NoiseLevels} {s : List Bool} {sk : List (List (BitVec W))} (hs : SecretOk P n ν s sk)
    {t : CtType} {b : Bool} {c : Ct W} (h : CtDecrypts P (bitKey W s) sk c (ctOf t b)) : decBit P (bitKey W s) sk c = some b := by
  have hW : 0 < W := by have := hP.levels; omega
  have hN : 0 < P.degree := by rw [hP.degree]; exact Nat.two_pow_pos n
  have hhead : ∀ l : List (BitVec W), headBit (some ((if b then (1 : BitVec W) else 0) :: l)) = some b := by
    intro l
    cases b
    · exact congrArg some (one_ne_zero_bv hW)
    · exact congrArg some (beq_self_eq_true _)
  cases t <;> cases c <;> simp only [ctOf, CtDecrypts] at h
  · exact h
  · exact h
  · rw [decBit, h]
    have := const_poly (W := W) (P := P) hP.degree b
    rw [constMsg, if_neg (by omega)] at this
    rw [← this]
    exact hhead _
  · exact h
  · rw [decBit, h]
    exact hhead _

theorem mapM_bits {n v : Nat} {P : EvalParams} (hP : ParamsOk W n v P) {ν : NoiseLevels} {s : List Bool} {sk : List (List (BitVec W))} (hs : SecretOk P n ν s sk) {t : CtType} :
    ∀ {bs : List Bool} {cs : List (Ct W)}, List.Forall₂ (fun b c => CtDecrypts P (bitKey W s) sk c (ctOf t b)) bs cs → cs.mapM (decBit P (bitKey W s) sk) = some bs
  | [], [], _ => rfl
  | _ :: _, _ :: _, .cons h hs' => by rw [List.mapM_cons, decBit_held hP hs h, mapM_bits hP hs hs']; rfl

/-- decrypting the bits of an integer -/
theorem intDecrypt_ok {n v : Nat} {P : EvalParams} (hP : ParamsOk W n v P) {ν : NoiseLevels} {s : List Bool} {sk : List (List (BitVec W))} (hs : SecretOk P n ν s sk) {t : CtType} {sg : Sign}
    {bs : List Bool} {cs : List (Ct W)} (h : List.Forall₂ (fun b c => CtDecrypts P (bitKey W s) sk c (ctOf t b)) bs cs) : intDecrypt P (bitKey W s) sk sg cs = fromBits sg bs := by
  rw [intDecrypt, mapM_bits hP hs h]

theorem encBits_ok {n : Nat} {P : EvalParams} (hd : P.degree = 2 ^ n) {s : List (BitVec W)} {sk : List (List (BitVec W))} {pk : Glwe (BitVec W)} {B : Nat} {d : Nat → PkDraws W}
    (h : ∀ (p : Nat → Bool) i, ∃ ct, clientEncRlwe P pk ((List.range P.degree).map fun i => if p i then 1 else 0) (d i) = some ct ∧ Held P n s sk B (.glwe1 ct) (.glwe1 p)) :
    ∀ (bs : List Bool) (i : Nat), ∃ cs, encBits P pk d i bs = some cs ∧ List.Forall₂ (fun b c => Held P n s sk B c (ctOf .glwe1 b)) bs cs
  | [], _ => ⟨[], rfl, .nil⟩
  | b :: bs, i => by
    obtain ⟨ct, c1, c2⟩ := h (constPoly b) i
    obtain ⟨cs, e1, e2⟩ := encBits_ok hd h bs (i + 1)
    refine ⟨.glwe1 ct :: cs, ?_, .cons c2 e2⟩
    rw [encBits, const_poly hd, Option.bind_some, c1, e1]

/-- **C109, unpacked integers.** Generate a public key. Every integer that fits in `n` bits can be encrypted bit by bit; the ciphertexts hold its bits with noise at most `pkNoise` and (if that is below a quarter of the torus)
decrypt to the integer — for all draws. -/
theorem C109_unpacked {n v : Nat} {P : EvalParams} (hP : ParamsOk W n v P) {ν : NoiseLevels} {s : List Bool} {s1 : List (BitVec W)} (hs : SecretOk P n ν s [s1])
    {E : Nat} {mask e : List (BitVec W)} (hk : PkOk P.degree E mask e) :
    ∃ pk, rlwePublicKey P.degree s1 mask (some e) = some pk ∧ ∀ (sg : Sign) (w : Nat) (x : BitVec 128), Fits sg w x → ∀ d : Nat → PkDraws W, (∀ i, PkDrawsOk P.degree E (d i)) →
      ∃ cs, intEncrypt P pk sg x w d = some cs ∧
        (∃ bs : List Bool, bs.length = w ∧ bitsInt sg bs = intOf sg x ∧ List.Forall₂ (fun b c => CtHolds P (bitKey W s) [s1] (pkNoise P.degree E) c (ctOf .glwe1 b)) bs cs) ∧
        (pkNoise P.degree E < 2 ^ (W - 2) → intDecrypt P (bitKey W s) [s1] sg cs = some x) := by
  obtain ⟨pk, p1, p2⟩ := rlwe_held hP hs hk
  refine ⟨pk, p1, fun sg w x hx d hd => ?_⟩
  obtain ⟨bs, b1, b2, b3, b4, b5⟩ := toBits_ok hx
  obtain ⟨cs, c1, c2⟩ := encBits_ok hP.degree (fun p i => p2 p (d i) (hd i)) bs 0
  refine ⟨cs, ?_, ⟨bs, b3, b4, c2.imp fun b c h => (holds_iff hP hs.key _ _).2 h⟩, fun hB => ?_⟩
  · rw [intEncrypt, b1, b2]; exact c1
  · rw [intDecrypt_ok hP hs (c2.imp fun b c h => held_decrypts hP hs h hB), b5]

/-- one bit under the secret keys -/
theorem encBitSecret_ok {n v : Nat} {P : EvalParams} (hP : ParamsOk W n v P) {ν : NoiseLevels} {s : List Bool} {sk : List (List (BitVec W))} (hs : SecretOk P n ν s sk)
    {t : CtType} {E : Nat} {d : BitDraws W} (hd : BitDrawsOk P t E d) (b : Bool) : ∃ c, encBitSecret P (bitKey W s) sk t b d = some c ∧ CtEncrypts P (bitKey W s) sk E (ctOf t b) c := by
  have hp := Nat.two_pow_pos n
  obtain ⟨p1, p2, p3, p4⟩ := hP.levels
  have hW : 1 < W := by omega
  have hflen : (toLweKey sk).length = P.glweSize * 2 ^ n := by
    rw [toLweKey, List.length_flatten, List.map_congr_left hs.key.2, List.map_const', List.sum_replicate, hs.key.1]; rfl
  have hlwe : ∀ {m : Nat} (_ : 0 < m) {key : List (BitVec W)} (_ : key.length = m), d.lweMask.length = m → ∃ c, clientEncLwe m key b d.lweMask d.lweNoise = some c := by
    intro m hm key hk h1
    obtain ⟨ct, e1, e2, e3⟩ := C50_lwe m (by omega) (lweZero m) key d.lweMask (bitTorus W b) (BitVec.ofInt W d.lweNoise) (by simp [lweZero]) hk h1
    exact ⟨ct, by rw [clientEncLwe, encode_bit hW]; exact e1⟩
  cases t with
  | lwe0 =>
    have h1 := hd.lweMask.1 rfl
    obtain ⟨c, hc⟩ := hlwe hP.lweDim (key := bitKey W s) (by simp [bitKey, hs.len]) h1
    exact ⟨.lwe0 c, by rw [encBitSecret, hc]; rfl, _, _, h1, hd.lweNoise, hc⟩
  | lwe1 =>
    have h1 := hd.lweMask.2 rfl
    obtain ⟨c, hc⟩ := hlwe (Nat.mul_pos hP.glweSize (by rw [hP.degree]; exact hp)) (key := toLweKey sk) (by rw [hP.degree]; exact hflen) h1
    exact ⟨.lwe1 c, by rw [encBitSecret, hc]; rfl, _, _, h1, hd.lweNoise, hc⟩
  | glwe1 =>
    have h1 := hd.glweMask
    have h2 := hd.glweNoise
    rw [hP.degree] at h1 h2
    obtain ⟨ct, e1, e2, e3⟩ := glweEncrypt_phase (glweZero P.glweSize (2 ^ n)) (bitPoly W (2 ^ n) (constPoly b)) sk d.glweMask (torusNoise W d.glweNoise)
      ⟨glweZero_valid _ _, by simp [glweZero]⟩ (bitPoly_length _ _) hs.key h1 (by
        intro l hl
        rw [torusNoise] at hl
        obtain ⟨l', hl', rfl⟩ := Option.map_eq_some_iff.1 hl
        simpa using (h2 l' hl').1)
    have hc : clientEncGlwe P sk ((List.range P.degree).map fun i => if constPoly b i then 1 else 0) d.glweMask d.glweNoise = some ct := by
      rw [clientEncGlwe, encodePoly_bits hW, hP.degree]; exact e1
    exact ⟨.glwe1 ct, by rw [encBitSecret, const_poly hP.degree]; simp only [Option.bind_some]; rw [hc]; rfl, _, _, hd.glweMask, hd.glweNoise, hc⟩
  | glev1 =>
    have h1 := hd.glevMask
    have h2 := hd.glevNoise
    rw [hP.degree] at h1 h2
    obtain ⟨g, g1, g2⟩ := glevEncrypt_spec (E := E) hP.width P.cbs hP.cbs.1 hP.cbs.2.1 (by have := hP.cbs.2.2; omega) ((if b then 1 else 0) :: List.replicate (2 ^ n - 1) 0)
      (by simp; omega) sk hs.key d.glevMask d.glevNoise h1 h2 _ freshGlev_ok.1 freshGlev_ok.2
    have hc : clientEncGlev P sk b d.glevMask d.glevNoise = some g := by
      rw [clientEncGlev, constMsg, hP.degree, if_neg (by omega), allocGlev_eq hP.degree]; exact g1
    exact ⟨.glev1 g, by rw [encBitSecret, hc]; rfl, _, _, hd.glevMask, hd.glevNoise, hc⟩
  | ggsw1 =>
    have h1 := hd.ggswMask
    have h2 := hd.ggswNoise
    rw [hP.degree] at h1 h2
    obtain ⟨g, g1, g2⟩ := ggsw_exists (E := E) hP.width P.cbs hP.cbs.1 hP.cbs.2.1 (by have := hP.cbs.2.2; omega) 1 hW ((if b then 1 else 0) :: List.replicate (2 ^ n - 1) 0)
      (by simp; omega) (bit_fits hW b) sk hs.key d.ggswMask h1 d.ggswNoise h2
    have hc : clientEncGgsw P sk b d.ggswMask d.ggswNoise = some g := by
      rw [clientEncGgsw, ggswEncryptScalar, hP.degree, if_neg (by omega), allocGgsw_eq hP.degree]; exact g1
    exact ⟨.ggsw1 g, by rw [encBitSecret, hc]; rfl, _, _, hd.ggswMask, hd.ggswNoise, hc⟩

/-- **C109, secret-key encryption.** Every integer that fits in `n` bits can be encrypted bit by bit under the secret keys, as ciphertexts of any of the five types; the ciphertexts encrypt its bits, and decrypt to the integer
if the noise is below the limit of the type — for all draws. -/
theorem C109_secret {n v : Nat} {P : EvalParams} (hP : ParamsOk W n v P) {ν : NoiseLevels} {s : List Bool} {sk : List (List (BitVec W))} (hs : SecretOk P n ν s sk)
    (t : CtType) (sg : Sign) (w : Nat) (x : BitVec 128) (hx : Fits sg w x) (E : Nat) (d : Nat → BitDraws W) (hd : ∀ i, BitDrawsOk P t E (d i)) :
    ∃ cs, intEncryptSecret P (bitKey W s) sk t sg x w d = some cs ∧
      (∃ bs : List Bool, bs.length = w ∧ bitsInt sg bs = intOf sg x ∧ List.Forall₂ (fun b c => CtEncrypts P (bitKey W s) sk E (ctOf t b) c) bs cs) ∧
      (E < decryptLimit W P (ctOf t false) → intDecrypt P (bitKey W s) sk sg cs = some x) := by
  obtain ⟨bs, b1, b2, b3, b4, b5⟩ := toBits_ok hx
  have key : ∀ (bs : List Bool) (i : Nat), ∃ cs, encBitsSecret P (bitKey W s) sk t d i bs = some cs ∧ List.Forall₂ (fun b c => CtEncrypts P (bitKey W s) sk E (ctOf t b) c) bs cs := by
    intro bs
    induction bs with
    | nil => exact fun _ => ⟨[], rfl, .nil⟩
    | cons b bs ih =>
      intro i
      obtain ⟨c, c1, c2⟩ := encBitSecret_ok hP hs (hd i) b
      obtain ⟨cs, e1, e2⟩ := ih (i + 1)
      exact ⟨c :: cs, by rw [encBitsSecret, c1, e1], .cons c2 e2⟩
  obtain ⟨cs, c1, c2⟩ := key bs 0
  refine ⟨cs, by rw [intEncryptSecret, b1, b2]; exact c1, ⟨bs, b3, b4, c2⟩, fun hB => ?_⟩
  rw [intDecrypt_ok hP hs (c2.imp fun b c h => held_decrypts hP hs (encrypts_held hP hs h) (by cases t <;> exact hB)), b5]

/-! ### recryption -/

theorem bitWords_eq (l : List Bool) : bitWords l = (List.range l.length).map fun i => if l.getD i false then (1 : BitVec 64) else 0 := by
  apply List.ext_getElem
  · simp [bitWords]
  · intro i h1 h2
    have hi : i < l.length := by simpa using h2
    rw [List.getElem_map, List.getElem_range, List.getD_eq_getElem?_getD, List.getElem?_eq_getElem hi]
    simp [bitWords]

/-- **C109, recrypted integers.** A client encrypts an integer as a packed integer, another party makes a one-time pad with any key. Recrypting and removing the GLWE encryption gives the bits of the integer (followed by
zeros) exclusive-or the key, and removing the pad gives the integer — for all draws with noise below an eighth of the torus. -/
theorem C109_recrypted {n v : Nat} {P : EvalParams} (hP : ParamsOk 64 n v P) {ν : NoiseLevels} {s : List Bool} {s1 : List (BitVec 64)} (hs : SecretOk P n ν s [s1])
    {E : Nat} {mask e : List (BitVec 64)} (hk : PkOk P.degree E mask e) (hE : pkNoise P.degree E < 2 ^ 61) :
    ∃ pk, rlwePublicKey P.degree s1 mask (some e) = some pk ∧ ∀ (sg : Sign) (w : Nat) (x : BitVec 128), Fits sg w x → w < P.degree → ∀ key : List Bool, key.length = P.degree →
      ∀ d d' : PkDraws 64, PkDrawsOk P.degree E d → PkDrawsOk P.degree E d' →
      ∃ c otp r, packedEncrypt P pk sg x w d = some c ∧ clientEncRlwe P pk (bitWords key) d' = some otp ∧ recryptedOuter [s1] (packedRecrypt c otp) = some r ∧
        (∃ bs : List Bool, bs.length = w ∧ bitsInt sg bs = intOf sg x ∧ r = (w, bitWords (List.zipWith (· ^^ ·) (bs ++ List.replicate (P.degree - w) false) key))) ∧
        recryptedDecrypt sg r (bitWords key) = some x := by
  obtain ⟨pk, p1, p2⟩ := rlwe_held hP hs hk
  refine ⟨pk, p1, fun sg w x hx hw key hkey d d' hd hd' => ?_⟩
  obtain ⟨bs, b1, b2, b3, b4, b5⟩ := toBits_ok hx
  obtain ⟨ct, c1, c2⟩ := p2 (fun i => bs.getD i false) d hd
  obtain ⟨otp, o1, o2⟩ := p2 (fun i => key.getD i false) d' hd'
  rw [← hkey, ← bitWords_eq] at o1
  obtain ⟨c, a1, a2, a3⟩ := add_phase ct otp [s1] c2.1 o2.1
  have hadd : recryptOtp ct otp = c := Option.some.inj ((addOp_eq n P.glweSize ct otp c2.1 o2.1).symm.trans a1)
  have hH : Held P n (bitKey 64 s) [s1] (pkNoise P.degree E + pkNoise P.degree E) (.glwe1 c) (.glwe1 fun i => Bool.xor (bs.getD i false) (key.getD i false)) := by
    refine ⟨a2, ?_⟩
    rw [a3, ← bitPoly_xor (by have := hP.levels; omega), add_sub_add_comm]
    exact c2.2.add o2.2
  have hdec := held_decrypts hP hs hH (by show _ < 2 ^ (64 - 2); omega)
  have hbits : (List.range P.degree).map (fun i => if Bool.xor (bs.getD i false) (key.getD i false) then (1 : BitVec 64) else 0) =
      bitWords (List.zipWith (· ^^ ·) (bs ++ List.replicate (P.degree - w) false) key) := by
    rw [bitWords_eq]
    have hl : (List.zipWith (· ^^ ·) (bs ++ List.replicate (P.degree - w) false) key).length = P.degree := by simp [hkey, b3]; omega
    rw [hl]
    apply List.map_congr_left
    intro i hi
    have hi : i < P.degree := by simpa using hi
    have : (List.zipWith (· ^^ ·) (bs ++ List.replicate (P.degree - w) false) key).getD i false = Bool.xor (bs.getD i false) (key.getD i false) := by
      rw [List.getD_eq_getElem?_getD, List.getElem?_eq_getElem (by omega), List.getElem_zipWith]
      rw [List.getD_eq_getElem?_getD, List.getD_eq_getElem?_getD, List.getElem?_eq_getElem (l := key) (by omega)]
      by_cases hb : i < bs.length
      · rw [List.getElem_append_left hb, List.getElem?_eq_getElem hb]; rfl
      · rw [List.getElem_append_right (by omega), List.getElem_replicate, List.getElem?_eq_none (by omega)]; rfl
    rw [this]
  refine ⟨⟨w, ct⟩, otp, (w, bitWords (List.zipWith (· ^^ ·) (bs ++ List.replicate (P.degree - w) false) key)), ?_, o1, ?_, ⟨bs, b3, b4, rfl⟩, ?_⟩
  · rw [packedEncrypt, b1, packedEncode, if_pos hw, b2]
    simp only
    rw [packed_poly, c1]
  · rw [recryptedOuter, packedRecrypt]
    simp only
    rw [hadd, show clientDecGlwe [s1] c = _ from hdec, hbits]
  · have hl : (bs ++ List.replicate (P.degree - w) false).length = key.length := by simp [hkey, b3]; omega
    rw [recryptedDecrypt, if_pos (by simp [bitWords, hkey, b3]; omega), decryptOtp, if_pos (by simp [bitWords, hkey, b3]; omega), otp_bits _ _ hl]
    simp only
    have : ((bitWords (bs ++ List.replicate (P.degree - w) false)).map fun c => c == 1).take w = bs := by
      rw [← b3, bitWords, List.map_append, List.map_append, List.take_left' (by simp)]
      rw [List.map_map]
      conv_rhs => rw [← List.map_id bs]
      apply List.map_congr_left
      intro b _
      cases b <;> rfl
    rw [this, b5]

/-- a public key and draws for the small parameters, with non-zero noise everywhere -/
def exPkMask : List (BitVec 64) := (List.range 16).map fun i => BitVec.ofNat 64 (2 ^ 40 * i + 12345)
def exPkNoise : List (BitVec 64) := (List.range 16).map fun i => if i % 2 = 0 then 3 else -2
def exPkDraws : PkDraws 64 := ⟨(List.range 16).map fun i => BitVec.ofNat 64 (i % 2), List.replicate 16 (-1), List.replicate 16 2⟩

theorem exPk_ok : PkOk 16 3 exPkMask exPkNoise := by
  refine ⟨by decide, by decide, ?_⟩
  intro x hx
  obtain ⟨i, _, rfl⟩ := List.mem_map.1 hx
  split <;> decide

theorem exPkDraws_ok : PkDrawsOk 16 3 exPkDraws := by
  refine ⟨⟨by decide, ?_⟩, ⟨by decide, ?_⟩, ⟨by decide, ?_⟩⟩
  · intro x hx
    obtain ⟨i, _, rfl⟩ := List.mem_map.1 hx
    rcases Nat.mod_two_eq_zero_or_one i with h | h <;> rw [h]
    · exact Or.inl rfl
    · exact Or.inr rfl
  · intro x hx; rw [List.eq_of_mem_replicate hx]; decide
  · intro x hx; rw [List.eq_of_mem_replicate hx]; decide

/-- the signed integer -5 in 8 bits: packed, unpacked and recrypted -/
example : ∃ pk c, rlwePublicKey 16 (exCtSk.headD []) exPkMask (some exPkNoise) = some pk ∧ packedEncrypt exCtParams pk .signed (BitVec.ofInt 128 (-5)) 8 exPkDraws = some c ∧
    packedDecrypt exCtParams exCtSk .signed c = some (BitVec.ofInt 128 (-5)) := by
  obtain ⟨pk, p1, p2⟩ := C109_packed (P := exCtParams) exCtParams_ok exCtSecret_ok exPk_ok
  obtain ⟨c, c1, _, _, c4⟩ := p2 .signed 8 (BitVec.ofInt 128 (-5)) ⟨by decide, by decide, by decide, by decide⟩ (by decide) exPkDraws exPkDraws_ok
  exact ⟨pk, c, p1, c1, c4 (by decide)⟩

example : ∃ pk cs, rlwePublicKey 16 (exCtSk.headD []) exPkMask (some exPkNoise) = some pk ∧ intEncrypt exCtParams pk .unsigned 200#128 8 (fun _ => exPkDraws) = some cs ∧
    intDecrypt exCtParams (bitKey 64 [true, true]) exCtSk .unsigned cs = some 200#128 := by
  obtain ⟨pk, p1, p2⟩ := C109_unpacked (P := exCtParams) exCtParams_ok exCtSecret_ok exPk_ok
  obtain ⟨c, c1, _, c4⟩ := p2 .unsigned 8 200#128 ⟨by decide, by decide⟩ (fun _ => exPkDraws) (fun _ => exPkDraws_ok)
  exact ⟨pk, c, p1, c1, c4 (by decide)⟩

example : ∃ pk c otp r, rlwePublicKey 16 (exCtSk.headD []) exPkMask (some exPkNoise) = some pk ∧ packedEncrypt exCtParams pk .signed (BitVec.ofInt 128 (-5)) 8 exPkDraws = some c ∧
    clientEncRlwe exCtParams pk (bitWords ((List.range 16).map fun i => i % 3 == 0)) exPkDraws = some otp ∧ recryptedOuter exCtSk (packedRecrypt c otp) = some r ∧
    recryptedDecrypt .signed r (bitWords ((List.range 16).map fun i => i % 3 == 0)) = some (BitVec.ofInt 128 (-5)) := by
  obtain ⟨pk, p1, p2⟩ := C109_recrypted (P := exCtParams) exCtParams_ok exCtSecret_ok exPk_ok (by decide)
  obtain ⟨c, otp, r, h1, h2, h3, _, h4⟩ := p2 .signed 8 (BitVec.ofInt 128 (-5)) ⟨by decide, by decide, by decide, by decide⟩ (by decide) ((List.range 16).map fun i => i % 3 == 0) (by decide)
    exPkDraws exPkDraws exPkDraws_ok exPkDraws_ok
  exact ⟨pk, c, otp, r, p1, h1, h2, h3, h4⟩

/-- a value that does not fit is refused; its trivial encryption is truncated -/
example (pk : Glwe (BitVec 64)) : packedEncrypt exCtParams pk .unsigned 300#128 8 exPkDraws = none := C109_packed_refuses _ _ _ _ (by decide) (by decide) _ _ (by simp [Fits])
example : ∃ c, packedTrivial exCtParams .unsigned 300#128 8 = some c ∧ ∃ y, packedDecrypt exCtParams exCtSk .unsigned c = some y ∧ y.toNat = 44 := by
  obtain ⟨c, y, h1, h2, _, h4⟩ := C109_packed_trivial exCtParams_ok .unsigned 8 (by decide) (by decide) (by decide) 300#128
  refine ⟨c, h1, y, h4 _ _ _ exCtSecret_ok, ?_⟩
  have : (y.toNat : Int) = 44 := h2.trans (by decide)
  exact_mod_cast this

/-- the noise bound holds with room at the 128-bit parameters, for noise up to `2^48` -/
example : pkNoise default128.degree (2 ^ 48) < 2 ^ 61 := by decide

/-- draws for secret-key encryptions of every type -/
def exBitDraws (t : CtType) : BitDraws 64 :=
  ⟨if t = .lwe0 then [7, 11] else List.replicate 16 5, -3, [List.replicate 16 9], some (List.replicate 16 2), fun j => [List.replicate 16 (BitVec.ofNat 64 j)], fun _ => some (List.replicate 16 (-1)),
    fun i j => [List.replicate 16 (BitVec.ofNat 64 (i + 2 * j))], fun _ _ => some (List.replicate 16 3)⟩

theorem exBitDraws_ok (t : CtType) : BitDrawsOk exCtParams t 3 (exBitDraws t) := by
  have hn : ∀ z : Int, z.natAbs ≤ 3 → NoiseOk 16 3 (some (List.replicate 16 z)) := by
    intro z hz l hl
    cases hl
    exact ⟨by simp, fun x hx => by rw [List.eq_of_mem_replicate hx]; exact hz⟩
  have hk : ∀ z : BitVec 64, KeyFor [List.replicate 16 z] 1 16 := fun z => ⟨rfl, by simp⟩
  refine ⟨⟨by rintro rfl; rfl, by rintro rfl; rfl⟩, by show (3 : Nat) ≤ 3; exact le_refl _, hk _, hn _ (by decide), fun j => hk _, fun j => hn _ (by decide), fun i j => hk _, fun i j => hn _ (by decide)⟩

/-- -5 in 8 bits under the secret keys, in every type -/
example (t : CtType) : ∃ cs, intEncryptSecret exCtParams (bitKey 64 [true, true]) exCtSk t .signed (BitVec.ofInt 128 (-5)) 8 (fun _ => exBitDraws t) = some cs ∧
    intDecrypt exCtParams (bitKey 64 [true, true]) exCtSk .signed cs = some (BitVec.ofInt 128 (-5)) := by
  obtain ⟨cs, h1, _, h3⟩ := C109_secret exCtParams_ok exCtSecret_ok t .signed 8 (BitVec.ofInt 128 (-5)) ⟨by decide, by decide, by decide, by decide⟩ 3 _ (fun _ => exBitDraws_ok t)
  exact ⟨cs, h1, h3 (by cases t <;> decide)⟩

end Spf.Props
