import Verif.Model.TrivialInt
import Verif.Props.EncInt
/-! C122: trivial encryptions of integers, of all five ciphertext types. -/
set_option autoImplicit false
namespace Spf.Props
open Spf.Spec Spf.Fhe Spf.Fluent Spf.Tfhe Spf.CtExec Spf.EncInt Spf.TrivialInt
variable {W : Nat}

/-- Constants of an evaluation that hold the bits 0 and 1 up to `B`. -/
def ConstsHold {W : Nat} (P : EvalParams) (s : List (BitVec W)) (sk : List (List (BitVec W))) (B : Nat) (C : Consts W) : Prop :=
  CtHolds P s sk B (.ggsw1 C.zero) (.ggsw1 false) ∧ CtHolds P s sk B (.ggsw1 C.one) (.ggsw1 true)

theorem trivialLwe1_ok {n : Nat} {P : EvalParams} (hW : 1 < W) (hd : P.degree = 2 ^ n) (hk : 0 < P.glweSize) (sk : List (BitVec W)) (b : Bool) :
    ∃ c, trivialLwe1 P b = some c ∧ c.a.length = P.glweSize * 2 ^ n ∧ ph sk c = bitTorus W b := by
  have hp := Nat.mul_pos hk (Nat.two_pow_pos n)
  refine ⟨⟨(List.replicate (P.glweSize * P.degree) (0 : BitVec W)).map fun _ => 0, bitTorus W b⟩, ?_, by simp [hd], ?_⟩
  · rw [trivialLwe1, encode_bit hW]
    simp only
    rw [lweTrivial, if_pos ⟨by rw [hd]; omega, by simp [lweZero]⟩]
    rfl
  · have := dotAcc_zero (List.replicate (P.glweSize * P.degree) (0 : BitVec W)) sk
    rw [ph]
    simp only
    rw [this, sub_zero]

theorem mkGgsw_ok {n v : Nat} {P : EvalParams} {ν : NoiseLevels} {s : List Bool} {sk : List (List (BitVec W))} {K : EvalKey W} (h : Setting W n v P s sk ν K)
    (h0 : 0 < bootLimit W P ν) {e : OpErr W} (he : ErrOk P n ν.fft e) (b : Bool) :
    ∃ g, mkGgsw P K b e = some g ∧ Held P n (bitKey W s) sk (bootNoise W P ν) (.ggsw1 g) (.ggsw1 b) := by
  have hW : 1 < W := by have := h.params.levels; omega
  obtain ⟨c, c1, c2, c3⟩ := trivialLwe0_ok hW h.params.lweDim (bitKey W s) b
  obtain ⟨g, g1, g2⟩ := bootstrap_ok h he (B := 0) (b := b) c2 (by rw [c3]; exact Near.refl _) h0
  exact ⟨g, by rw [mkGgsw, c1]; exact g1, g2⟩

/-- one bit; the ciphertext does not depend on the key, but for GGSW ciphertexts -/
theorem trivialBit_ok {n v : Nat} {P : EvalParams} (hP : ParamsOk W n v P) {C : Consts W} (t : CtType) (b : Bool) :
    ∃ c, trivialBit P C t b = some c ∧ ∀ (s : List (BitVec W)) (sk : List (List (BitVec W))) (B : Nat),
      (t = .ggsw1 → Held P n s sk B (.ggsw1 C.zero) (.ggsw1 false) ∧ Held P n s sk B (.ggsw1 C.one) (.ggsw1 true)) → (t ≠ .ggsw1 → B = 0) →
      Held P n s sk B c (ctOf t b) := by
  have hW : 1 < W := by have := hP.levels; omega
  cases t with
  | lwe0 =>
    obtain ⟨c, c1, c2, _⟩ := trivialLwe0_ok hW hP.lweDim ([] : List (BitVec W)) b
    refine ⟨.lwe0 c, by rw [trivialBit, c1]; rfl, fun s sk B _ h => ?_⟩
    obtain ⟨c', d1, _, d3⟩ := trivialLwe0_ok hW hP.lweDim s b
    rw [c1] at d1; cases d1; cases h (by decide)
    exact ⟨c2, by rw [d3]; exact Near.refl _⟩
  | lwe1 =>
    obtain ⟨c, c1, c2, _⟩ := trivialLwe1_ok hW hP.degree hP.glweSize ([] : List (BitVec W)) b
    refine ⟨.lwe1 c, by rw [trivialBit, c1]; rfl, fun s sk B _ h => ?_⟩
    obtain ⟨c', d1, _, d3⟩ := trivialLwe1_ok hW hP.degree hP.glweSize (toLweKey sk) b
    rw [c1] at d1; cases d1; cases h (by decide)
    exact ⟨c2, by rw [d3]; exact Near.refl _⟩
  | glwe1 =>
    obtain ⟨c, c1, c2, _⟩ := trivialGlwe1_ok hW hP.degree ([] : List (List (BitVec W))) b
    refine ⟨.glwe1 c, by rw [trivialBit, c1]; rfl, fun s sk B _ h => ?_⟩
    obtain ⟨c', d1, _, d3⟩ := trivialGlwe1_ok hW hP.degree sk b
    rw [c1] at d1; cases d1; cases h (by decide)
    exact ⟨c2, by rw [d3, sub_self]; exact Tfhe.small_zero⟩
  | glev1 =>
    obtain ⟨c, c1, _⟩ := trivialGlev1_ok hP ([] : List (List (BitVec W))) b
    refine ⟨.glev1 c, by rw [trivialBit, c1]; rfl, fun s sk B _ h => ?_⟩
    obtain ⟨c', d1, d2⟩ := trivialGlev1_ok hP sk b
    rw [c1] at d1; cases d1; cases h (by decide)
    exact d2
  | ggsw1 =>
    refine ⟨_, rfl, fun s sk B h _ => ?_⟩
    obtain ⟨h1, h2⟩ := h rfl
    cases b
    · exact h1
    · exact h2

theorem trivialBits_ok {n v : Nat} {P : EvalParams} (hP : ParamsOk W n v P) {C : Consts W} (t : CtType) : ∀ bs : List Bool,
    ∃ cs, trivialBits P C t bs = some cs ∧ ∀ (s : List (BitVec W)) (sk : List (List (BitVec W))) (B : Nat),
      (t = .ggsw1 → Held P n s sk B (.ggsw1 C.zero) (.ggsw1 false) ∧ Held P n s sk B (.ggsw1 C.one) (.ggsw1 true)) → (t ≠ .ggsw1 → B = 0) →
      List.Forall₂ (fun b c => Held P n s sk B c (ctOf t b)) bs cs
  | [] => ⟨[], rfl, fun _ _ _ _ _ => .nil⟩
  | b :: bs => by
    obtain ⟨c, c1, c2⟩ := trivialBit_ok hP (C := C) t b
    obtain ⟨cs, e1, e2⟩ := trivialBits_ok hP (C := C) t bs
    exact ⟨c :: cs, by rw [trivialBits, c1, e1], fun s sk B h1 h2 => .cons (c2 s sk B h1 h2) (e2 s sk B h1 h2)⟩

/-- **C122, the constants of an evaluation.** Generate a compute key, with any masks and noise within `ν`. If a bootstrap can remove no noise at all, creating an evaluation succeeds, for all floating-point errors within
`ν.fft`; its two constants hold the bits 0 and 1 with the noise of a bootstrapped ciphertext. -/
theorem C122_constants {n v : Nat} {P : EvalParams} (hP : ParamsOk W n v P) {ν : NoiseLevels} {s : List Bool} {sk : List (List (BitVec W))} (hs : SecretOk P n ν s sk)
    (checked : Bool) {D : KeyDraws W} (hD : DrawsOk P n ν D) (h0 : 0 < bootLimit W P ν) :
    ∃ K, computeKeyGen checked P (bitKey W s) sk D = some K ∧ ∀ e0 e1 : OpErr W, ErrOk P n ν.fft e0 → ErrOk P n ν.fft e1 →
      ∃ C, evalNew P K e0 e1 = some C ∧ ConstsHold P (bitKey W s) sk (bootNoise W P ν) C := by
  obtain ⟨K, k1, k2⟩ := keygen_ok hP hs checked hD
  refine ⟨K, k1, fun e0 e1 he0 he1 => ?_⟩
  obtain ⟨z, z1, z2⟩ := mkGgsw_ok k2 h0 he0 false
  obtain ⟨o, o1, o2⟩ := mkGgsw_ok k2 h0 he1 true
  exact ⟨⟨z, o⟩, by rw [evalNew, z1, o1], (holds_iff hP hs.key _ _).2 z2, (holds_iff hP hs.key _ _).2 o2⟩

/-- **C122, trivial integers of the four unbootstrapped types.** Every integer that fits in `w` bits has a trivial encryption of each type but GGSW; the ciphertexts do not depend on any key, and under every pair of secret
keys they hold the bits of the integer without noise and decrypt to the integer. -/
theorem C122_trivial {n v : Nat} {P : EvalParams} (hP : ParamsOk W n v P) (C : Consts W) (t : CtType) (ht : t ≠ .ggsw1) (sg : Sign) (w : Nat) (x : BitVec 128) (hx : Fits sg w x) :
    ∃ cs, intTrivial P C t sg x w = some cs ∧ ∀ (ν : NoiseLevels) (s : List Bool) (sk : List (List (BitVec W))), SecretOk P n ν s sk →
      (∃ bs : List Bool, bs.length = w ∧ bitsInt sg bs = intOf sg x ∧ List.Forall₂ (fun b c => CtHolds P (bitKey W s) sk 0 c (ctOf t b)) bs cs) ∧
      intDecrypt P (bitKey W s) sk sg cs = some x := by
  obtain ⟨bs, b1, b2, b3, b4, b5⟩ := toBits_ok hx
  obtain ⟨cs, c1, c2⟩ := trivialBits_ok hP (C := C) t bs
  refine ⟨cs, by rw [intTrivial, b1, b2]; exact c1, fun ν s sk hs => ?_⟩
  have hH := c2 (bitKey W s) sk 0 (fun h => absurd h ht) (fun _ => rfl)
  refine ⟨⟨bs, b3, b4, hH.imp fun b c h => (holds_iff hP hs.key _ _).2 h⟩, ?_⟩
  rw [intDecrypt_ok hP hs (hH.imp fun b c h => held_decrypts hP hs h (by cases t <;> exact Nat.two_pow_pos _)), b5]

/-- **C122, trivial GGSW integers.** With constants that hold 0 and 1 up to `B`, every integer that fits has a trivial GGSW encryption, whose ciphertexts hold the bits of the integer up to `B` and, if `B` is below the limit of
decryption, decrypt to the integer. -/
theorem C122_trivial_ggsw {n v : Nat} {P : EvalParams} (hP : ParamsOk W n v P) {ν : NoiseLevels} {s : List Bool} {sk : List (List (BitVec W))} (hs : SecretOk P n ν s sk)
    (C : Consts W) (B : Nat) (hC : ConstsHold P (bitKey W s) sk B C) (sg : Sign) (w : Nat) (x : BitVec 128) (hx : Fits sg w x) :
    ∃ cs, intTrivial P C .ggsw1 sg x w = some cs ∧
      (∃ bs : List Bool, bs.length = w ∧ bitsInt sg bs = intOf sg x ∧ List.Forall₂ (fun b c => CtHolds P (bitKey W s) sk B c (.ggsw1 b)) bs cs) ∧
      (B < decryptLimit W P (.ggsw1 false) → intDecrypt P (bitKey W s) sk sg cs = some x) := by
  obtain ⟨bs, b1, b2, b3, b4, b5⟩ := toBits_ok hx
  obtain ⟨cs, c1, c2⟩ := trivialBits_ok hP (C := C) .ggsw1 bs
  have hH := c2 (bitKey W s) sk B (fun _ => ⟨(holds_iff hP hs.key _ _).1 hC.1, (holds_iff hP hs.key _ _).1 hC.2⟩) (fun h => absurd rfl h)
  refine ⟨cs, by rw [intTrivial, b1, b2]; exact c1, ⟨bs, b3, b4, hH.imp fun b c h => (holds_iff hP hs.key _ _).2 h⟩, fun hB => ?_⟩
  rw [intDecrypt_ok (t := .ggsw1) hP hs (hH.imp fun b c h => held_decrypts hP hs h (show B < decryptLimit W P (ctOf .ggsw1 b) from hB)), b5]

/-- **C122, out of range.** Integers that do not fit are refused, whatever the type of the ciphertexts (unlike trivial packed integers, which are truncated: `C109_packed_trivial`). -/
theorem C122_refuses (P : EvalParams) (C : Consts W) (t : CtType) (sg : Sign) (w : Nat) (hw : w ≤ 127) (h1 : 1 ≤ w) (x : BitVec 128) (h : ¬ Fits sg w x) : intTrivial P C t sg x w = none := by
  rw [intTrivial]
  cases hb : inBounds sg x w with
  | none => rfl
  | some u =>
    refine absurd ?_ h
    cases sg with
    | unsigned => exact ⟨by omega, (C21_unsigned_bounds x w (by omega)).1 hb⟩
    | signed => exact ⟨h1, hw, (C21_signed_bounds_partial x w h1 hw).1 hb⟩

/-- The operator of a circuit that stands for a constant of a type (`graph_trivial_zero`, `graph_trivial_one`: parasol_runtime/src/fluent/mod.rs:185-191, 263-269, 308-314, 343-349; level-1 LWE ciphertexts have none). -/
def constOp : CtType → Bool → Option FheOp
  | .lwe0, b => some (if b then .oneLwe0 else .zeroLwe0)
  | .glwe1, b => some (if b then .oneGlwe1 else .zeroGlwe1)
  | .glev1, b => some (if b then .oneGlev1 else .zeroGlev1)
  | .ggsw1, b => some (if b then .oneGgsw1 else .zeroGgsw1)
  | .lwe1, _ => none

/-- **C122, constants of circuits.** A constant node of a circuit computes exactly the trivial encryption of its bit: the client's trivial integers are those a circuit would make. -/
theorem C122_circuit (P : EvalParams) (K : EvalKey W) (err : FheOp → List (Ct W × FheEdge) → OpErr W) (cells : CtType → Nat → Ct W) (C : Consts W)
    (hC : evalNew P K (err .zeroGgsw1 []) (err .oneGgsw1 []) = some C) (t : CtType) (b : Bool) (op : FheOp) (hop : constOp t b = some op) :
    execCt P K err cells op [] = trivialBit P C t b := by
  have key : mkGgsw P K false (err .zeroGgsw1 []) = some C.zero ∧ mkGgsw P K true (err .oneGgsw1 []) = some C.one := by
    rw [evalNew] at hC
    cases hz : mkGgsw P K false (err .zeroGgsw1 []) with
    | none => simp [hz] at hC
    | some z =>
      cases ho : mkGgsw P K true (err .oneGgsw1 []) with
      | none => simp [hz, ho] at hC
      | some o =>
        simp only [hz, ho, Option.some.injEq] at hC
        subst hC
        exact ⟨rfl, rfl⟩
  have bind : ∀ (b : Bool) (e : OpErr W), (trivialLwe0 P b).bind (bootstrapCt P K e) = mkGgsw P K b e := by
    intro b e
    rw [mkGgsw]
    cases trivialLwe0 P b <;> rfl
  cases t <;> cases b <;> simp only [constOp, Option.some.injEq, reduceCtorEq, Bool.false_eq_true, if_false, if_true] at hop <;> subst hop <;> simp only [execCt, trivialBit] <;>
    first
    | rfl
    | (rw [bind, key.1]; rfl)
    | (rw [bind, key.2]; rfl)

/-- **C122, single bits.** `Bit::trivial_encryption` and `Bit::encrypt_secret` (parasol_runtime/src/fluent/bit.rs:41-45, 66-71) make ciphertexts of every type that `Bit::decrypt` (bit.rs:36-38) opens to the bit. -/
theorem C122_bit {n v : Nat} {P : EvalParams} (hP : ParamsOk W n v P) {ν : NoiseLevels} {s : List Bool} {sk : List (List (BitVec W))} (hs : SecretOk P n ν s sk) (t : CtType) (b : Bool) :
    (∀ (C : Consts W) (B : Nat), ConstsHold P (bitKey W s) sk B C → B < decryptLimit W P (.ggsw1 b) → ∃ c, trivialBit P C t b = some c ∧ decBit P (bitKey W s) sk c = some b) ∧
    (∀ (E : Nat) (d : BitDraws W), BitDrawsOk P t E d → E < decryptLimit W P (ctOf t b) → ∃ c, encBitSecret P (bitKey W s) sk t b d = some c ∧ decBit P (bitKey W s) sk c = some b) := by
  refine ⟨fun C B hC hB => ?_, fun E d hd hE => ?_⟩
  · obtain ⟨c, c1, c2⟩ := trivialBit_ok hP (C := C) t b
    refine ⟨c, c1, decBit_held hP hs (t := t) ?_⟩
    by_cases ht : t = .ggsw1
    · subst ht
      exact held_decrypts hP hs (c2 _ _ B (fun _ => ⟨(holds_iff hP hs.key _ _).1 hC.1, (holds_iff hP hs.key _ _).1 hC.2⟩) (fun h => absurd rfl h)) hB
    · exact held_decrypts hP hs (c2 _ _ 0 (fun h => absurd h ht) (fun _ => rfl)) (by cases t <;> exact Nat.two_pow_pos _)
  · obtain ⟨c, c1, c2⟩ := encBitSecret_ok hP hs hd b
    exact ⟨c, c1, decBit_held hP hs (held_decrypts hP hs (encrypts_held hP hs c2) hE)⟩

/-- no floating-point error -/
def exTrivErr : OpErr 64 := ⟨fun _ => glweZero 1 16, fun _ => glweZero 1 16, fun _ _ => glweZero 1 16, fun _ => glweZero 1 16⟩

theorem exTrivErr_ok (F : Nat) : ErrOk exCtParams 4 F exTrivErr := by
  have h : FftErr 1 (2 ^ 4) F (glweZero 1 16 : Glwe (BitVec 64)) := by
    refine ⟨glweZero_valid _ _, fun p hp x hx => ?_⟩
    have hp' : p = List.replicate 16 0 := by simpa [glweZero] using hp
    subst hp'
    rw [List.eq_of_mem_replicate hx]
    simp
  exact ⟨fun _ => h, fun _ => h, fun _ _ => h, fun _ => glweZero_valid _ _⟩

/-- the signed integer -5 in 8 bits, as every unbootstrapped type, under two different keys -/
example (C : Consts 64) (t : CtType) (ht : t ≠ .ggsw1) : ∃ cs, intTrivial exCtParams C t .signed (BitVec.ofInt 128 (-5)) 8 = some cs ∧
    intDecrypt exCtParams (bitKey 64 [true, true]) exCtSk .signed cs = some (BitVec.ofInt 128 (-5)) ∧
    intDecrypt exCtParams (bitKey 64 [false, true]) exCtSk .signed cs = some (BitVec.ofInt 128 (-5)) := by
  obtain ⟨cs, c1, c2⟩ := C122_trivial exCtParams_ok C t ht .signed 8 (BitVec.ofInt 128 (-5)) ⟨by decide, by decide, by decide, by decide⟩
  exact ⟨cs, c1, (c2 _ _ _ exCtSecret_ok).2, (c2 exCtLevels _ _ ⟨rfl, by decide, exCtSecret_ok.key, exCtSecret_ok.bin⟩).2⟩

/-- the unsigned integer 200 in 8 bits, as GGSW ciphertexts, with the constants of an evaluation -/
example : ∃ K C cs, computeKeyGen true exCtParams (bitKey 64 [true, true]) exCtSk exCtDraws = some K ∧ evalNew exCtParams K exTrivErr exTrivErr = some C ∧
    intTrivial exCtParams C .ggsw1 .unsigned 200#128 8 = some cs ∧ intDecrypt exCtParams (bitKey 64 [true, true]) exCtSk .unsigned cs = some 200#128 := by
  obtain ⟨K, k1, k2⟩ := C122_constants exCtParams_ok exCtSecret_ok true exCtDraws_ok (by decide +kernel)
  obtain ⟨C, c1, c2⟩ := k2 exTrivErr exTrivErr (exTrivErr_ok _) (exTrivErr_ok _)
  obtain ⟨cs, d1, _, d3⟩ := C122_trivial_ggsw exCtParams_ok exCtSecret_ok C _ c2 .unsigned 8 200#128 ⟨by decide, by decide⟩
  exact ⟨K, C, cs, k1, c1, d1, d3 (by decide +kernel)⟩

/-- 300 does not fit in 8 bits -/
example (C : Consts 64) (t : CtType) : intTrivial exCtParams C t .unsigned 300#128 8 = none := C122_refuses _ _ _ _ _ (by decide) (by decide) _ (by simp [Fits])

/-- an evaluation at the small parameters exists for every key it is made with, and its constants are those of the circuits -/
example (K : EvalKey 64) (cells : CtType → Nat → Ct 64) (C : Consts 64) (hC : evalNew exCtParams K exTrivErr exTrivErr = some C) :
    execCt exCtParams K (fun _ _ => exTrivErr) cells .oneGgsw1 [] = some (.ggsw1 C.one) := C122_circuit exCtParams K (fun _ _ => exTrivErr) cells C hC .ggsw1 true .oneGgsw1 rfl

end Spf.Props
