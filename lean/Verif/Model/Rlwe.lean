import Verif.Model.Glwe
import Verif.Model.Torus
import Mathlib.Data.BitVec
/-! Model of RLWE public-key encryption (`sunscreen_tfhe/src/ops/encryption/rlwe_encryption.rs`), of encoded encryption
and decryption of polynomials, and of one-time-pad recryption (`parasol_runtime/src/crypto/recryption.rs`). Random draws
are arguments. -/
namespace Spf.Tfhe
section
variable {R : Type} [CommRing R]

/-- `RlwePublicKey::new` (entities/rlwe_public_key.rs:37-45) followed by `rlwe_generate_public_key`
(rlwe_encryption.rs:47-59): a secret-key encryption of zero into a zeroed buffer; RLWE has one mask polynomial. -/
def rlwePublicKey (N : Nat) (s mask : List R) (noise : Option (List R)) : Option (Glwe R) :=
  glweEncrypt N ⟨[List.replicate N 0], List.replicate N 0⟩ (List.replicate N 0) [s] [mask] noise

/-- `rlwe_encrypt_public_impl`, rlwe_encryption.rs:125-163: the ciphertext `ct` is cleared first. -/
def rlweEncryptPublic (N : Nat) (msg : List R) (pk : Glwe R) (u e0 e1 : List R) : Option (Glwe R) :=
  match pk.a with
  | [p0] =>
    if msg.length = N ∧ p0.length = N ∧ pk.b.length = N then
      match polyMad (List.replicate N 0) p0 u, polyMad (List.replicate N 0) pk.b u with
      | some a, some b =>
        let a := polyAddAssign a e0
        let b := polyAddAssign b e1
        let b := polyAddAssign b msg
        some ⟨[a], b⟩
      | _, _ => none
    else none
  | _ => none

/-- `Add for &GlweCiphertextRef`, macros.rs:41-54 with `AddAssign`, macros.rs:5-15 (entities/glwe_ciphertext.rs:28): the
flat slices are added element by element up to the shorter one. -/
def glweAddOp (a b : Glwe R) : Glwe R := ⟨zipAssign polyAddAssign a.a b.a, polyAddAssign a.b b.b⟩

end

/-- Encoding a polynomial coefficient by coefficient: `rlwe_encode_encrypt_public` (rlwe_encryption.rs:80-83),
`encode_encrypt_glwe` (entities/glwe_secret_key.rs:122). -/
def encodePoly {W : Nat} (p : List (BitVec W)) (bits : Nat) : Option (List (BitVec W)) := p.mapM (encode · bits)

/-- `decrypt_decode_glwe`, entities/glwe_secret_key.rs:92-110. -/
def glweDecryptDecode {W : Nat} (ct : Glwe (BitVec W)) (sk : List (List (BitVec W))) (bits : Nat) :
    Option (List (BitVec W)) :=
  match glweDecrypt ct sk with
  | none => none
  | some m => m.mapM (decode · bits)

/-- `recrypt_one_time_pad`, parasol_runtime/src/crypto/recryption.rs:88-99, through `KeylessEvaluation::xor`
(crypto/evaluation.rs:53-55). -/
def recryptOtp (x otp : Glwe (BitVec 64)) : Glwe (BitVec 64) := glweAddOp x otp

/-- The loop of `decrypt_one_time_pad`, recryption.rs:107-113: `(a + b) % 2` with a checked addition. -/
def otpLoop : List (BitVec 64) → List (BitVec 64) → Option (List (BitVec 64))
  | a :: as, b :: bs => match addC a b, otpLoop as bs with
    | some c, some cs => some (c % 2#64 :: cs)
    | _, _ => none
  | _, _ => some []

/-- `decrypt_one_time_pad`, recryption.rs:102-116. -/
def decryptOtp (x key : List (BitVec 64)) : Option (List (BitVec 64)) :=
  if key.length = x.length then otpLoop x key else none

end Spf.Tfhe
