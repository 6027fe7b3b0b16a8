import Verif.Model.Glwe
import Verif.Model.Rand
/-! Model of the operators `+`, `-`, unary `-` (and `+=`, `-=`, `wrapping_*`) of secret keys and ciphertexts: `impl_binary_op!`, `impl_unary_op!` of `sunscreen_tfhe/src/macros.rs`, instantiated for
`LweSecretKey`, `GlweSecretKey`, `LweCiphertext`, `GlweCiphertext` (entities/lwe_secret_key.rs:23-25, glwe_secret_key.rs:33-35, lwe_ciphertext.rs:20-22, glwe_ciphertext.rs:28-30). All four are flat slices. -/
namespace Spf.Tfhe
variable {R : Type} [CommRing R]

/-- sunscreen_tfhe/src/macros.rs:5-16 `add_assign` (all other forms of `+` call it, 18-55): a `zip`, so operands of different lengths are not refused. -/
def opAdd (x y : List R) : List R := zipAssign (· + ·) x y

/-- sunscreen_tfhe/src/macros.rs:5-16 `sub_assign`. -/
def opSub (x y : List R) : List R := zipAssign (· - ·) x y

/-- sunscreen_tfhe/src/macros.rs:76-92 `neg`. -/
def opNeg (x : List R) : List R := x.map fun a => -a

/-- sunscreen_tfhe/src/entities/lwe_secret_key.rs:92-105 `decrypt_without_decode` on the flat slice: `assert_is_valid` (length `n + 1`), `a_b` (lwe_ciphertext.rs:57-61). -/
def lweDecryptFlat (n : Nat) (sk data : List R) : Option R :=
  if data.length = n + 1 then lweDecrypt n sk ⟨data.take n, data.getD n 0⟩ else none

/-- `a_b` of a GLWE ciphertext slice (sunscreen_tfhe/src/entities/glwe_ciphertext.rs:83-94, 136-138): the mask polynomials, then the body. -/
def glweOfFlat (N k : Nat) (data : List R) : Glwe R := ⟨polysOf N k data, (data.drop (k * N)).take N⟩

/-- `decrypt_glwe_ciphertext` (ops/encryption/glwe_encryption.rs:104-126) on flat slices of key and ciphertext, after the validity checks of the lengths. -/
def glweDecryptFlat (N k : Nat) (sk data : List R) : Option (List R) :=
  if data.length = N * k + N then glweDecrypt (glweOfFlat N k data) (polysOf N k sk) else none

end Spf.Tfhe
