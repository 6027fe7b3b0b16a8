import Mathlib.Data.BitVec
import Verif.Model.Glwe
import Verif.Model.Torus
/-! Model of LWE public keys and encryption under them: `sunscreen_tfhe/src/entities/lwe_public_key.rs`. The flat slice
of the key is the list of its ciphertexts (C97 relates the two). Random draws are arguments. `none` = panic. -/
namespace Spf.Tfhe
variable {W : Nat}

/-- The loop of `LwePublicKey::generate`, sunscreen_tfhe/src/entities/lwe_public_key.rs:62-64: every ciphertext of the
zeroed key becomes an encryption of zero, encoded with one plaintext bit
(`encode_and_encrypt_lwe_ciphertext`, sunscreen_tfhe/src/ops/encryption/lwe_encryption.rs:63-76). -/
def lwePkLoop (n : Nat) (sk : List (BitVec W)) : List (List (BitVec W) × BitVec W) → Option (List (Lwe (BitVec W)))
  | [] => some []
  | (mask, e) :: ds => do
    let m ← encode (0 : BitVec W) 1
    let c ← lweEncrypt n ⟨List.replicate n 0, 0⟩ sk m mask e
    let cs ← lwePkLoop n sk ds
    some (c :: cs)

/-- `LwePublicKey::generate`, sunscreen_tfhe/src/entities/lwe_public_key.rs:53-67; `draws` holds the mask and the noise
of each of the `n` ciphertexts. -/
def lwePkGenerate (n : Nat) (sk : List (BitVec W)) (draws : List (List (BitVec W) × BitVec W)) :
    Option (List (Lwe (BitVec W))) :=
  if n ≠ 0 ∧ sk.length = n ∧ draws.length = n then lwePkLoop n sk draws else none

/-- The loop over the ciphertexts of the key, sunscreen_tfhe/src/entities/lwe_public_key.rs:108-118. The indexing
`acc_a[i]`, `a[i]` for `i < n` panics unless the mask has `n` elements. -/
def lwePkSum (n : Nat) : List (Lwe (BitVec W)) → List (BitVec W) → Lwe (BitVec W) → Option (Lwe (BitVec W))
  | z :: zs, r :: rs, acc =>
    if z.a.length = n ∧ acc.a.length = n then
      lwePkSum n zs rs ⟨zipAssign (fun c a => c + a * r) acc.a z.a, acc.b + z.b * r⟩
    else none
  | [], _, acc => some acc
  | _ :: _, [], _ => none

/-- The record `TlwePublicEncRandomness`, sunscreen_tfhe/src/entities/lwe_public_key.rs:18-24. -/
structure LwePkRandomness (W : Nat) where
  r : List (BitVec W)
  e : Lwe (BitVec W)

/-- `LwePublicKeyRef::encrypt`, sunscreen_tfhe/src/entities/lwe_public_key.rs:88-133. `rs` are the binary draws, `ea`
and `eb` the noise draws. -/
def lwePkEncrypt (n : Nat) (pk : List (Lwe (BitVec W))) (msg : BitVec W) (p : Nat) (rs ea : List (BitVec W))
    (eb : BitVec W) : Option (Lwe (BitVec W) × LwePkRandomness W) :=
  if n ≠ 0 ∧ pk.length = n ∧ p < W then do
    let m ← encode msg p
    let acc ← lwePkSum n pk rs ⟨List.replicate n 0, 0⟩
    some (⟨zipAssign (· + ·) acc.a ea, acc.b + m + eb⟩, ⟨rs, ⟨ea, eb⟩⟩)
  else none

end Spf.Tfhe
