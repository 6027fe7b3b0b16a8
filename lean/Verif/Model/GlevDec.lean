import Verif.Model.Gadget
import Verif.Model.Rlwe
/-! Model of the decryption of GLev and GGSW ciphertexts, of their trivial encryptions, and of public-key RLev encryption
(`sunscreen_tfhe/src/ops/encryption/{glev,ggsw}_encryption.rs`). `none` = panic. -/
namespace Spf.Tfhe
variable {W : Nat}

/-- glev_encryption.rs:195-203, one coefficient of the decrypted GLWE ciphertext `index`: the shift amounts
`BITS - radix_log * (index + 1)` and `... - 1` panic on underflow, `0x1 << radix_log` (a `u64`) for logs of 64 and more,
`val + r` on overflow. -/
def glevRoundCoeff (log index : Nat) (c : BitVec W) : Option (BitVec W) :=
  if log * (index + 1) + 1 ≤ W ∧ log < 64 then
    match addC (c >>> (W - log * (index + 1))) ((c >>> (W - log * (index + 1) - 1)) &&& 1#W) with
    | none => none
    | some v => some (v &&& BitVec.ofNat W (2 ^ log - 1))
  else none

/-- sunscreen_tfhe/src/ops/encryption/glev_encryption.rs:163-204 `decrypt_glwe_in_glev`: the GLWE ciphertext number `index`
is decrypted and every coefficient is rounded to a multiple of its gadget factor. -/
def glevDecryptAt (r : Radix) (ct : List (Glwe (BitVec W))) (sk : List (List (BitVec W))) (index : Nat) : Option (List (BitVec W)) :=
  if r.valid W = true ∧ ct.length = r.count then
    match ct[index]? with
    | none => none
    | some glwe => match glweDecrypt glwe sk with
      | none => none
      | some m => m.mapM (glevRoundCoeff r.log index)
  else none

/-- sunscreen_tfhe/src/ops/encryption/glev_encryption.rs:215-225 `decrypt_glev_ciphertext`. -/
def glevDecrypt (r : Radix) (ct : List (Glwe (BitVec W))) (sk : List (List (BitVec W))) : Option (List (BitVec W)) :=
  glevDecryptAt r ct sk 0

/-- sunscreen_tfhe/src/ops/encryption/ggsw_encryption.rs:142-155 `decrypt_glwe_in_ggsw`. -/
def ggswDecryptAt (r : Radix) (ct : List (List (Glwe (BitVec W)))) (sk : List (List (BitVec W))) (row column : Nat) : Option (List (BitVec W)) :=
  match ct[row]? with
  | none => none
  | some glev => glevDecryptAt r glev sk column

/-- sunscreen_tfhe/src/ops/encryption/ggsw_encryption.rs:158-180 `decrypt_ggsw_ciphertext` with `k` key polynomials (and
`high_level::encryption::decrypt_ggsw`, high_level.rs:734-746, which ignores its plaintext bits). -/
def ggswDecrypt (k : Nat) (r : Radix) (ct : List (List (Glwe (BitVec W)))) (sk : List (List (BitVec W))) : Option (List (BitVec W)) :=
  if r.valid W = true ∧ ct.length = k + 1 ∧ sk.length = k then ggswDecryptAt r ct sk k 0 else none

/-! ### trivial encryptions -/

/-- glev_encryption.rs:51-54 with `trivially_encrypt_glwe_with_sk_argument` (glwe_encryption.rs:10-19), from index `j`. -/
def glevTrivialRows (log : Nat) (msg : List (BitVec W)) : Nat → List (Glwe (BitVec W)) → Option (List (Glwe (BitVec W)))
  | _, [] => some []
  | j, buf :: bufs =>
    match scaleMsg msg log j with
    | none => none
    | some m => match glweTrivial buf m with
      | none => none
      | some ct => match glevTrivialRows log msg (j + 1) bufs with
        | none => none
        | some cts => some (ct :: cts)

/-- sunscreen_tfhe/src/ops/encryption/glev_encryption.rs:101-122 `trivially_encrypt_glev_ciphertext`. -/
def glevTrivial (N : Nat) (r : Radix) (buf : List (Glwe (BitVec W))) (msg : List (BitVec W)) : Option (List (Glwe (BitVec W))) :=
  if r.valid W = true ∧ buf.length = r.count ∧ msg.length = N then glevTrivialRows r.log msg 0 buf else none

/-- ggsw_encryption.rs:40-68 with trivial encryptions, from row `i`; `key` is the all-zero key of line 102. -/
def ggswTrivialRows (N : Nat) (r : Radix) (msg : List (BitVec W)) (key : List (List (BitVec W))) : Nat → List (List (Glwe (BitVec W))) →
    Option (List (List (Glwe (BitVec W))))
  | _, [] => some []
  | i, buf :: bufs =>
    match ggswRowMsg N msg key[i]? with
    | none => none
    | some m => match glevTrivial N r buf m with
      | none => none
      | some row => match ggswTrivialRows N r msg key (i + 1) bufs with
        | none => none
        | some rows => some (row :: rows)

/-- sunscreen_tfhe/src/ops/encryption/ggsw_encryption.rs:94-115 `trivially_encrypt_ggsw_ciphertext`. -/
def ggswTrivial (k N : Nat) (r : Radix) (bits : Nat) (buf : List (List (Glwe (BitVec W)))) (msg : List (BitVec W)) :
    Option (List (List (Glwe (BitVec W)))) :=
  if bits < 64 ∧ ∀ x ∈ msg, x < BitVec.ofNat W (2 ^ bits) then
    ggswTrivialRows N r msg (List.replicate k (List.replicate N 0)) 0 buf
  else none

/-! ### public-key RLev encryption -/

/-- glev_encryption.rs:153-159, the loop of `encrypt_rlev_ciphertext` over `count` ciphertexts from index `j`. Line 156,
`dbg!(&scaled_msg.coeffs()[0..16])`, prints sixteen coefficients and panics if there are fewer. `u j`, `e0 j`, `e1 j` are
the draws of `rlwe_encrypt_public` for ciphertext `j`; its output buffer is cleared, so it is not an argument. -/
def rlevRows (N log : Nat) (msg : List (BitVec W)) (pk : Glwe (BitVec W)) (u e0 e1 : Nat → List (BitVec W)) : Nat → Nat →
    Option (List (Glwe (BitVec W)))
  | _, 0 => some []
  | j, c + 1 =>
    match scaleMsg msg log j with
    | none => none
    | some m => if m.length < 16 then none else
      match rlweEncryptPublic N m pk (u j) (e0 j) (e1 j) with
      | none => none
      | some ct => match rlevRows N log msg pk u e0 e1 (j + 1) c with
        | none => none
        | some cts => some (ct :: cts)

/-- sunscreen_tfhe/src/ops/encryption/glev_encryption.rs:134-160 `encrypt_rlev_ciphertext` (high_level.rs:799-810
`encrypt_binary_msg_rlev`). -/
def rlevEncrypt (N : Nat) (r : Radix) (msg : List (BitVec W)) (pk : Glwe (BitVec W)) (u e0 e1 : Nat → List (BitVec W)) :
    Option (List (Glwe (BitVec W))) :=
  if r.valid W = true ∧ msg.length = N then rlevRows N r.log msg pk u e0 e1 0 r.count else none

end Spf.Tfhe
