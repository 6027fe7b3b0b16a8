import Verif.Model.Glwe
import Verif.Model.Torus
import Mathlib.Data.BitVec
/-! Model of the gadget layer of `sunscreen_tfhe`: Lev / GLev / GGSW ciphertexts, keyswitching, external product, CMUX.
Torus elements are `BitVec W`; random draws are arguments; ciphertext slices are structured lists as in `Model/Glwe`;
`none` = panic. Products that the code computes through an FFT are exact here, the rounding of the inverse FFT enters as
an explicit argument of `cmux`. -/
namespace Spf.Tfhe

variable {W : Nat}

/-- The factor `S::from_u64(0x1 << (S::BITS - radix_log * (j + 1)))`
(sunscreen_tfhe/src/ops/keyswitch/lwe_keyswitch_key.rs:42-43, ops/encryption/glev_encryption.rs:74): the subtraction
panics on underflow, the shift of a `u64` by 64 or more panics. -/
def gadgetFactor (W log j : Nat) : Option (BitVec W) :=
  if log * (j + 1) ≤ W ∧ W - log * (j + 1) < 64 then some (BitVec.ofNat W (2 ^ (W - log * (j + 1)))) else none

/-! ### LWE keyswitching -/

/-- lwe_keyswitch_key.rs:45 `let msg = decomp_factor * s_i`, the plain machine product: with overflow checks
(`checked = true`, debug profile) it panics on overflow, without it wraps. -/
def kskMsg (checked : Bool) (f s : BitVec W) : Option (BitVec W) :=
  if checked = true ∧ ¬ f.toNat * s.toNat < 2 ^ W then none else some (f * s)

/-- lwe_keyswitch_key.rs:39-48, the inner loop over one Lev row from column `j`. `bufs` is the row before,
`draws j`, `noise j` are the random draws of the encryption of column `j`. -/
def kskRow (checked : Bool) (n log : Nat) (sk : List (BitVec W)) (s : BitVec W) (draws : Nat → List (BitVec W)) (noise : Nat → BitVec W) :
    Nat → List (Lwe (BitVec W)) → Option (List (Lwe (BitVec W)))
  | _, [] => some []
  | j, buf :: bufs =>
    match gadgetFactor W log j with
    | none => none
    | some f => match kskMsg checked f s with
      | none => none
      | some msg => match lweEncrypt n buf sk msg (draws j) (noise j) with
        | none => none
        | some ct => match kskRow checked n log sk s draws noise (j + 1) bufs with
          | none => none
          | some cts => some (ct :: cts)

/-- lwe_keyswitch_key.rs:36-49, the outer loop from row `i`. -/
def kskRows (checked : Bool) (n log : Nat) (sk : List (BitVec W)) (draws : Nat → Nat → List (BitVec W)) (noise : Nat → Nat → BitVec W) :
    Nat → List (BitVec W) → List (List (Lwe (BitVec W))) → Option (List (List (Lwe (BitVec W))))
  | _, _, [] => some []
  | _, [], _ :: _ => none
  | i, s :: old, row :: rows =>
    match kskRow checked n log sk s (draws i) (noise i) 0 row with
    | none => none
    | some r => match kskRows checked n log sk draws noise (i + 1) old rows with
      | none => none
      | some rs => some (r :: rs)

/-- The size check `keyswitch_key.assert_is_valid((old.dim, new.dim, radix.count))`
(sunscreen_tfhe/src/entities/lwe_keyswitch_key.rs:33-35): `old` rows of `count` LWE ciphertexts of dimension `n`. -/
def kskShape (old n count : Nat) (ksk : List (List (Lwe (BitVec W)))) : Prop :=
  ksk.length = old ∧ ∀ row ∈ ksk, row.length = count ∧ ∀ ct ∈ row, ct.a.length = n

instance (old n count : Nat) (ksk : List (List (Lwe (BitVec W)))) : Decidable (kskShape old n count ksk) := by
  unfold kskShape; infer_instance

/-- sunscreen_tfhe/src/ops/keyswitch/lwe_keyswitch_key.rs:16-50 `generate_keyswitch_key_lwe` into the buffer `buf`. `n` is
the new dimension, `n'` the old one. -/
def kskGen (checked : Bool) (n' n : Nat) (r : Radix) (buf : List (List (Lwe (BitVec W)))) (old new : List (BitVec W))
    (draws : Nat → Nat → List (BitVec W)) (noise : Nat → Nat → BitVec W) : Option (List (List (Lwe (BitVec W)))) :=
  if n' ≠ 0 ∧ n ≠ 0 ∧ r.valid W = true ∧ new.length = n ∧ old.length = n' ∧ kskShape n' n r.count buf then
    kskRows checked n r.log new draws noise 0 old buf
  else none

/-- sunscreen_tfhe/src/ops/ciphertext/lev_ciphertext_ops.rs:36-41, the loop: `rows` is the reversed list, `cur` the digit
buffer, which keeps its old contents when the iterator is exhausted (radix.rs:93-96). -/
def levMad : List (BitVec W) → BitVec W → List (Lwe (BitVec W)) → Lwe (BitVec W) → Option (Lwe (BitVec W))
  | _, _, [], c => some c
  | [], cur, b :: bs, c => match lweScalarMad c cur b with | none => none | some c => levMad [] cur bs c
  | d :: ds, _, b :: bs, c => match lweScalarMad c d b with | none => none | some c => levMad ds d bs c

/-- sunscreen_tfhe/src/ops/keyswitch/lwe_keyswitch.rs:48-53, the loop over mask elements and Lev rows. A one-element
polynomial is decomposed, so every digit polynomial has one coefficient. -/
def ksLoop (r : Radix) : List (BitVec W) → List (List (Lwe (BitVec W))) → Lwe (BitVec W) → Option (Lwe (BitVec W))
  | a :: as, row :: rows, acc =>
    match polyDigits [a] r with
    | none => none
    | some ds => match levMad (ds.map fun d => d.getD 0 0) 0 row.reverse acc with
      | none => none
      | some acc => ksLoop r as rows acc
  | _, _, acc => some acc

/-- An all-zero LWE ciphertext, `LweCiphertext::new` (sunscreen_tfhe/src/entities/lwe_ciphertext.rs:43-49). -/
def lweZero (n : Nat) : Lwe (BitVec W) := ⟨List.replicate n 0, 0⟩

/-- sunscreen_tfhe/src/ops/keyswitch/lwe_keyswitch.rs:23-61 `keyswitch_lwe_to_lwe` (every element of the output is
overwritten). -/
def keyswitch (n' n : Nat) (r : Radix) (ct : Lwe (BitVec W)) (ksk : List (List (Lwe (BitVec W)))) : Option (Lwe (BitVec W)) :=
  if n' ≠ 0 ∧ n ≠ 0 ∧ r.valid W = true ∧ ct.a.length = n' ∧ kskShape n' n r.count ksk then
    match ksLoop r ct.a ksk (lweZero n) with
    | none => none
    | some sum => match lweTrivial n (lweZero n) ct.b with
      | none => none
      | some t => lweSub t sum
  else none

/-! ### GLev and GGSW -/

/-- sunscreen_tfhe/src/ops/encryption/glev_encryption.rs:62-77 `scale_msg_by_gadget_factor`: the scratch polynomial is
overwritten. -/
def scaleMsg (msg : List (BitVec W)) (log j : Nat) : Option (List (BitVec W)) :=
  match gadgetFactor W log j with
  | none => none
  | some f => some (msg.map fun x => x * f)

/-- glev_encryption.rs:51-54, the loop over the GLWE ciphertexts of a GLev, from index `j`; each is encrypted into its
buffer. -/
def glevRows (N log : Nat) (msg : List (BitVec W)) (sk : List (List (BitVec W))) (masks : Nat → List (List (BitVec W)))
    (noise : Nat → Option (List (BitVec W))) : Nat → List (Glwe (BitVec W)) → Option (List (Glwe (BitVec W)))
  | _, [] => some []
  | j, buf :: bufs =>
    match scaleMsg msg log j with
    | none => none
    | some m => match glweEncrypt N buf m sk (masks j) (noise j) with
      | none => none
      | some ct => match glevRows N log msg sk masks noise (j + 1) bufs with
        | none => none
        | some cts => some (ct :: cts)

/-- sunscreen_tfhe/src/ops/encryption/glev_encryption.rs:23-55 `encrypt_secret_glev_ciphertext_generic` with
`encrypt_glwe_ciphertext_secret`. -/
def glevEncrypt (N : Nat) (r : Radix) (buf : List (Glwe (BitVec W))) (msg : List (BitVec W)) (sk : List (List (BitVec W)))
    (masks : Nat → List (List (BitVec W))) (noise : Nat → Option (List (BitVec W))) : Option (List (Glwe (BitVec W))) :=
  if r.valid W = true ∧ buf.length = r.count ∧ msg.length = N then glevRows N r.log msg sk masks noise 0 buf else none

/-- sunscreen_tfhe/src/ops/encryption/ggsw_encryption.rs:43-58, the message of row `i`: `-msg * s_i`, and `msg` itself for
the last row. -/
def ggswRowMsg (N : Nat) (msg : List (BitVec W)) : Option (List (BitVec W)) → Option (List (BitVec W))
  | some s => match polyMad (List.replicate N 0) msg s with
    | none => none
    | some q => some (polyNegate q)
  | none => some msg

/-- ggsw_encryption.rs:40-68, the loop over the rows from index `i`: row `i` takes `s_i` from the key while there is one. -/
def ggswRows (N : Nat) (r : Radix) (msg : List (BitVec W)) (sk : List (List (BitVec W))) (masks : Nat → Nat → List (List (BitVec W)))
    (noise : Nat → Nat → Option (List (BitVec W))) : Nat → List (List (Glwe (BitVec W))) → Option (List (List (Glwe (BitVec W))))
  | _, [] => some []
  | i, buf :: bufs =>
    match ggswRowMsg N msg sk[i]? with
    | none => none
    | some m => match glevEncrypt N r buf m sk (masks i) (noise i) with
      | none => none
      | some row => match ggswRows N r msg sk masks noise (i + 1) bufs with
        | none => none
        | some rows => some (row :: rows)

/-- sunscreen_tfhe/src/ops/encryption/ggsw_encryption.rs:16-69 `encrypt_ggsw_ciphertext_generic` with
`encrypt_glwe_ciphertext_secret` (72-91 `encrypt_ggsw_ciphertext`): every coefficient of the message must be below
`2^bits` (line 33; `0x1 << bits` is a `u64`). -/
def ggswEncrypt (N : Nat) (r : Radix) (bits : Nat) (buf : List (List (Glwe (BitVec W)))) (msg : List (BitVec W))
    (sk : List (List (BitVec W))) (masks : Nat → Nat → List (List (BitVec W))) (noise : Nat → Nat → Option (List (BitVec W))) :
    Option (List (List (Glwe (BitVec W)))) :=
  if bits < 64 ∧ ∀ x ∈ msg, x < BitVec.ofNat W (2 ^ bits) then ggswRows N r msg sk masks noise 0 buf else none

/-- sunscreen_tfhe/src/ops/encryption/ggsw_encryption.rs:118-140 `encrypt_ggsw_ciphertext_scalar`: the constant
polynomial. -/
def ggswEncryptScalar (N : Nat) (r : Radix) (bits : Nat) (buf : List (List (Glwe (BitVec W)))) (msg : BitVec W)
    (sk : List (List (BitVec W))) (masks : Nat → Nat → List (List (BitVec W))) (noise : Nat → Nat → Option (List (BitVec W))) :
    Option (List (List (Glwe (BitVec W)))) :=
  if N = 0 then none else ggswEncrypt N r bits buf (msg :: List.replicate (N - 1) 0) sk masks noise

/-- sunscreen_tfhe/src/ops/ciphertext/glev_ciphertext_ops.rs:38-41, the loop of `decomposed_polynomial_glev_mad` over the
reversed rows (and fft_ops.rs:90-95, exact products): `cur` is the digit buffer, stale when the iterator is exhausted. -/
def glevMad : List (List (BitVec W)) → List (BitVec W) → List (Glwe (BitVec W)) → Glwe (BitVec W) → Option (Glwe (BitVec W))
  | _, _, [], c => some c
  | [], cur, b :: bs, c => match glwePolyMad c b cur with | none => none | some c => glevMad [] cur bs c
  | d :: ds, _, b :: bs, c => match glwePolyMad c b d with | none => none | some c => glevMad ds d bs c

/-- sunscreen_tfhe/src/ops/ciphertext/glwe_ciphertext_ops.rs:233-239 (and fft_ops.rs:49-55), the loop of `glwe_ggsw_mad`
over the polynomials of the ciphertext (mask, then body) and the rows of the GGSW ciphertext. -/
def ggswMadLoop (N : Nat) (r : Radix) : List (List (BitVec W)) → List (List (Glwe (BitVec W))) → Glwe (BitVec W) → Option (Glwe (BitVec W))
  | p :: ps, row :: rows, c =>
    match polyDigits p r with
    | none => none
    | some ds => match glevMad ds (List.replicate N 0) row.reverse c with
      | none => none
      | some c => ggswMadLoop N r ps rows c
  | _, _, c => some c

/-- sunscreen_tfhe/src/ops/ciphertext/glwe_ciphertext_ops.rs:208-240 `glwe_ggsw_mad`: `c += a [*] b`. -/
def glweGgswMad (N : Nat) (r : Radix) (c a : Glwe (BitVec W)) (b : List (List (Glwe (BitVec W)))) : Option (Glwe (BitVec W)) :=
  ggswMadLoop N r (a.a ++ [a.b]) b c

/-- `GlweCiphertext::new` (sunscreen_tfhe/src/entities/glwe_ciphertext.rs:50-56): the all-zero ciphertext. -/
def glweZero (k N : Nat) : Glwe (BitVec W) := ⟨List.replicate k (List.replicate N 0), List.replicate N 0⟩

/-- sunscreen_tfhe/src/ops/ciphertext/glwe_ciphertext_ops.rs:244-258 `external_product_ggsw_glwe`. -/
def externalProduct (k N : Nat) (r : Radix) (ggsw : List (List (Glwe (BitVec W)))) (glwe : Glwe (BitVec W)) : Option (Glwe (BitVec W)) :=
  glweGgswMad N r (glweZero k N) glwe ggsw

/-- sunscreen_tfhe/src/ops/fft_ops.rs:149-181 `cmux`. The product is accumulated in the Fourier domain with `f64`
arithmetic and rounded by the inverse FFT (line 178): `fe` is the difference between the rounded and the exact product.
The output is overwritten (line 180), despite the remark in its documentation. -/
def cmux (k N : Nat) (r : Radix) (fe d0 d1 : Glwe (BitVec W)) (b : List (List (Glwe (BitVec W)))) : Option (Glwe (BitVec W)) :=
  match glweSub d1 d0 with
  | none => none
  | some diff => match externalProduct k N r b diff with
    | none => none
    | some exact => match glweAdd exact fe with
      | none => none
      | some prod => glweAdd prod d0

end Spf.Tfhe
