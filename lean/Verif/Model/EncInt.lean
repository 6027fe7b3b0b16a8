import Verif.Model.CtExec
import Verif.Model.PlainInt
/-! Encrypted integers as clients see them: `parasol_runtime/src/fluent/generic_int.rs` (GI below), `fluent/dynamic_generic_int.rs` (DI), `fluent/recrypted_int.rs` (RI),
`fluent/mod.rs` (FM). The statically sized types (`GenericInt<N, ..>`, `PackedGenericInt<N, ..>`: GI:98-160, fluent/packed_generic_int.rs:101-130) call the dynamic ones with their width. `none` = panic. -/
namespace Spf.EncInt
open Spf.Tfhe Spf.Fhe Spf.CtExec Spf.Fluent
variable {W : Nat}

/-- `PlaintextOps::assert_in_bounds` (fluent/uint.rs:21-23, fluent/int.rs:21-27) by signedness. -/
def inBounds : Sign → BitVec 128 → Nat → Option Unit
  | .unsigned => assertInBoundsU
  | .signed => assertInBoundsS

/-- `PlaintextOps::to_bits` (fluent/uint.rs:30-32, fluent/int.rs:47-49). -/
def toBits : Sign → BitVec 128 → Nat → Option (List Bool)
  | .unsigned => toBitsU
  | .signed => toBitsS

/-- `PlaintextOps::from_bits` (fluent/uint.rs:25-28, fluent/int.rs:29-45). -/
def fromBits : Sign → List Bool → Option (BitVec 128)
  | .unsigned => fromBitsU
  | .signed => fromBitsS

/-- The random draws of one public-key encryption (sunscreen_tfhe/src/ops/encryption/rlwe_encryption.rs:139-145). -/
structure PkDraws (W : Nat) where
  u : List (BitVec W)
  e0 : List (BitVec W)
  e1 : List (BitVec W)

/-- parasol_runtime/src/crypto/encryption.rs:205-217 `encrypt_rlwe_l1` with rlwe_encryption.rs:69-86 (asserts one mask polynomial, rlwe_encryption.rs:132). -/
def clientEncRlwe (P : EvalParams) (pk : Glwe (BitVec W)) (msg : List (BitVec W)) (d : PkDraws W) : Option (Glwe (BitVec W)) :=
  if P.glweSize = 1 then
    match encodePoly msg 1 with
    | none => none
    | some m => rlweEncryptPublic P.degree m pk d.u d.e0 d.e1
  else none

/-- GI:176-184 `PackedDynamicGenericInt`. -/
structure Packed (W : Nat) where
  bitLen : Nat
  ct : Glwe (BitVec W)

/-- GI:231-242 `PackedDynamicGenericInt::encode`. -/
def packedEncode (W : Nat) (P : EvalParams) (sg : Sign) (v : BitVec 128) (n : Nat) : Option (List (BitVec W)) :=
  if n < P.degree then
    match toBits sg v n with
    | none => none
    | some bs => some ((bs.map (fun (b : Bool) => if b then (1 : BitVec W) else 0) ++ List.replicate P.degree 0).take P.degree)
  else none

/-- GI:219-229 `PackedDynamicGenericInt::encrypt`. -/
def packedEncrypt (P : EvalParams) (pk : Glwe (BitVec W)) (sg : Sign) (v : BitVec 128) (n : Nat) (d : PkDraws W) : Option (Packed W) :=
  match inBounds sg v n with
  | none => none
  | some _ => match packedEncode W P sg v n with
    | none => none
    | some msg => match clientEncRlwe P pk msg d with
      | none => none
      | some ct => some ⟨n, ct⟩

/-- GI:270-280 `trivial_encrypt` (no bounds check) with crypto/encryption.rs:374-377 and sunscreen_tfhe/src/high_level.rs:658-679 `trivial_glwe`. -/
def packedTrivial (P : EvalParams) (sg : Sign) (v : BitVec 128) (n : Nat) : Option (Packed W) :=
  match packedEncode W P sg v n with
  | none => none
  | some msg => match encodePoly msg 1 with
    | none => none
    | some e => some ⟨n, ⟨List.replicate P.glweSize (List.replicate P.degree 0), e⟩⟩

/-- GI:245-258 `PackedDynamicGenericInt::decrypt`. -/
def packedDecrypt (P : EvalParams) (sk : List (List (BitVec W))) (sg : Sign) (x : Packed W) : Option (BitVec 128) :=
  if x.bitLen < P.degree then
    match clientDecGlwe sk x.ct with
    | none => none
    | some poly => fromBits sg ((poly.map fun c => c == 1).take x.bitLen)
  else none

/-- GI:290-299 `PackedDynamicGenericInt::recrypt`. -/
def packedRecrypt (x : Packed 64) (otp : Glwe (BitVec 64)) : Packed 64 := ⟨x.bitLen, recryptOtp x.ct otp⟩

/-- RI:31-37 `EncryptedRecryptedGenricInt::decrypt`. -/
def recryptedOuter (sk : List (List (BitVec 64))) (x : Packed 64) : Option (Nat × List (BitVec 64)) :=
  match clientDecGlwe sk x.ct with
  | none => none
  | some poly => some (x.bitLen, poly)

/-- RI:54-66 `RecryptedGenericInt::decrypt`. -/
def recryptedDecrypt (sg : Sign) (x : Nat × List (BitVec 64)) (key : List (BitVec 64)) : Option (BitVec 128) :=
  if x.1 ≤ x.2.length then
    match decryptOtp x.2 key with
    | none => none
    | some poly => fromBits sg ((poly.map fun c => c == 1).take x.1)
  else none

/-- DI:159-171: the loop over the bits; bit `i` of the integer uses the draws `d i`. -/
def encBits (P : EvalParams) (pk : Glwe (BitVec W)) (d : Nat → PkDraws W) : Nat → List Bool → Option (List (Ct W))
  | _, [] => some []
  | i, b :: bs => match (constMsg W P b).bind fun msg => clientEncRlwe P pk msg (d i) with
    | none => none
    | some ct => match encBits P pk d (i + 1) bs with
      | none => none
      | some cts => some (.glwe1 ct :: cts)

/-- DI:152-174 `DynamicGenericInt::encrypt` (public key). -/
def intEncrypt (P : EvalParams) (pk : Glwe (BitVec W)) (sg : Sign) (v : BitVec 128) (n : Nat) (d : Nat → PkDraws W) : Option (List (Ct W)) :=
  match inBounds sg v n with
  | none => none
  | some _ => match toBits sg v n with
    | none => none
    | some bs => encBits P pk d 0 bs

/-- The random draws of one secret-key encryption, of any type. -/
structure BitDraws (W : Nat) where
  lweMask : List (BitVec W)
  lweNoise : Int
  glweMask : List (List (BitVec W))
  glweNoise : Option (List Int)
  glevMask : Nat → List (List (BitVec W))
  glevNoise : Nat → Option (List Int)
  ggswMask : Nat → Nat → List (List (BitVec W))
  ggswNoise : Nat → Nat → Option (List Int)

/-- `CiphertextOps::encrypt_secret` (FM:161-163, 200-202, 239-241, 278-286, 328-333). -/
def encBitSecret (P : EvalParams) (s : List (BitVec W)) (sk : List (List (BitVec W))) (t : CtType) (b : Bool) (d : BitDraws W) : Option (Ct W) :=
  match t with
  | .lwe0 => (clientEncLwe P.lweDim s b d.lweMask d.lweNoise).map .lwe0
  | .lwe1 => (clientEncLwe (P.glweSize * P.degree) (toLweKey sk) b d.lweMask d.lweNoise).map .lwe1
  | .glwe1 => ((constMsg W P b).bind fun msg => clientEncGlwe P sk msg d.glweMask d.glweNoise).map .glwe1
  | .glev1 => (clientEncGlev P sk b d.glevMask d.glevNoise).map .glev1
  | .ggsw1 => (clientEncGgsw P sk b d.ggswMask d.ggswNoise).map .ggsw1

/-- DI:78-85: the loop over the bits. -/
def encBitsSecret (P : EvalParams) (s : List (BitVec W)) (sk : List (List (BitVec W))) (t : CtType) (d : Nat → BitDraws W) : Nat → List Bool → Option (List (Ct W))
  | _, [] => some []
  | i, b :: bs => match encBitSecret P s sk t b (d i) with
    | none => none
    | some ct => match encBitsSecret P s sk t d (i + 1) bs with
      | none => none
      | some cts => some (ct :: cts)

/-- DI:70-88 `DynamicGenericInt::encrypt_secret`. -/
def intEncryptSecret (P : EvalParams) (s : List (BitVec W)) (sk : List (List (BitVec W))) (t : CtType) (sg : Sign) (v : BitVec 128) (n : Nat) (d : Nat → BitDraws W) : Option (List (Ct W)) :=
  match inBounds sg v n with
  | none => none
  | some _ => match toBits sg v n with
    | none => none
    | some bs => encBitsSecret P s sk t d 0 bs

/-- the constant coefficient of a decrypted polynomial (FM:289, 325: `coeffs()[0] == 1`). -/
def headBit : Option (List (BitVec W)) → Option Bool
  | some (x :: _) => some (x == 1)
  | _ => none

/-- `CiphertextOps::decrypt` (FM:165-167, 204-206, 243-245, 288-290, 324-326). -/
def decBit (P : EvalParams) (s : List (BitVec W)) (sk : List (List (BitVec W))) : Ct W → Option Bool
  | .lwe0 c => clientDecLwe P.lweDim s c
  | .lwe1 c => clientDecLwe (P.glweSize * P.degree) (toLweKey sk) c
  | .glwe1 c => headBit (clientDecGlwe sk c)
  | .glev1 c => headBit (clientDecGlev P sk c)
  | .ggsw1 c => clientDecGgsw P sk c

/-- DI:91-93 `decrypt` with DI:109-114 `with_decryption_fn`. -/
def intDecrypt (P : EvalParams) (s : List (BitVec W)) (sk : List (List (BitVec W))) (sg : Sign) (cs : List (Ct W)) : Option (BitVec 128) :=
  match cs.mapM (decBit P s sk) with
  | none => none
  | some bs => fromBits sg bs

end Spf.EncInt
