import Verif.Model.Poly
/-! Model of LWE and GLWE encryption, decryption, sample extraction and linear operations of `sunscreen_tfhe`, over an
arbitrary commutative ring of torus elements (`BitVec 32`, `BitVec 64` in the code). Random draws (`uniform_torus`,
`normal_torus`) are arguments: the theorems quantify over every outcome. A ciphertext is a flat slice in the code, split
into `a` and `b` by `a_b` (entities/glwe_ciphertext.rs:83-94, 136-138); the model keeps the parts apart. `none` = panic. -/
namespace Spf.Tfhe
variable {R : Type} [CommRing R]

/-- sunscreen_tfhe/src/entities/lwe_ciphertext.rs `LweCiphertext`: the mask and the body. -/
structure Lwe (R : Type) where
  a : List R
  b : R
  deriving Repr, DecidableEq

/-- sunscreen_tfhe/src/entities/lwe_secret_key.rs:98-102: `dot += a_i * d_i` over the zip of mask and key. -/
def dotAcc : List R → List R → R → R
  | a :: as, d :: ds, acc => dotAcc as ds (acc + a * d)
  | _, _, acc => acc

/-- sunscreen_tfhe/src/entities/lwe_secret_key.rs:92-105 `decrypt_without_decode`; `n` is `params.dim`. -/
def lweDecrypt (n : Nat) (sk : List R) (ct : Lwe R) : Option R :=
  if n ≠ 0 ∧ ct.a.length = n then some (ct.b - dotAcc ct.a sk 0) else none

/-- sunscreen_tfhe/src/ops/encryption/lwe_encryption.rs:50-53, the loop: overwrite `a_i` by a fresh draw and accumulate
`a_i * d_i` into `b`. -/
def lweEncLoop : List R → List R → List R → R → List R × R
  | _ :: as, d :: ds, r :: rs, b => ((r :: (lweEncLoop as ds rs (b + r * d)).1), (lweEncLoop as ds rs (b + r * d)).2)
  | as, _, _, b => (as, b)

/-- sunscreen_tfhe/src/ops/encryption/lwe_encryption.rs:36-59 `encrypt_lwe_ciphertext` into the buffer `buf`. -/
def lweEncrypt (n : Nat) (buf : Lwe R) (sk : List R) (msg : R) (draws : List R) (e : R) : Option (Lwe R) :=
  if n ≠ 0 then
    let r := lweEncLoop buf.a sk draws 0
    some ⟨r.1, r.2 + (msg + e)⟩
  else none

/-- sunscreen_tfhe/src/ops/encryption/lwe_encryption.rs:13-32 `trivially_encrypt_lwe_ciphertext`. -/
def lweTrivial (n : Nat) (buf : Lwe R) (msg : R) : Option (Lwe R) :=
  if n ≠ 0 ∧ buf.a.length = n then some ⟨buf.a.map fun _ => 0, msg⟩ else none

/-- sunscreen_tfhe/src/ops/ciphertext/lwe_ciphertext_ops.rs:4-18 `add_lwe_inplace`. -/
def lweAdd (c a : Lwe R) : Option (Lwe R) :=
  if c.a.length = a.a.length then some ⟨zipAssign (· + ·) c.a a.a, c.b + a.b⟩ else none

/-- sunscreen_tfhe/src/ops/ciphertext/lwe_ciphertext_ops.rs:23-43 `sub_lwe_ciphertexts`. -/
def lweSub (a b : Lwe R) : Option (Lwe R) :=
  if a.a.length = b.a.length then some ⟨List.zipWith (· - ·) a.a b.a, a.b - b.b⟩ else none

/-- sunscreen_tfhe/src/ops/ciphertext/lwe_ciphertext_ops.rs:48-66 `scalar_mul_ciphertext_mad`: `c += scalar * a`. -/
def lweScalarMad (c : Lwe R) (s : R) (a : Lwe R) : Option (Lwe R) :=
  if c.a.length = a.a.length then some ⟨zipAssign (fun c a => c + a * s) c.a a.a, c.b + a.b * s⟩ else none

/-- sunscreen_tfhe/src/ops/homomorphisms/lwe.rs:9-20 `lwe_rotate`. -/
def lweRotate (n : Nat) (c : Lwe R) (amount : R) : Option (Lwe R) :=
  if c.a.length = n then some ⟨c.a, c.b + amount⟩ else none

/-- sunscreen_tfhe/src/entities/glwe_ciphertext.rs `GlweCiphertext`: `k` mask polynomials and the body. -/
structure Glwe (R : Type) where
  a : List (List R)
  b : List R
  deriving Repr, DecidableEq

/-- The length check `assert_is_valid(params.dim)` (dst.rs:520-523): `k` mask polynomials and a body of `N` coefficients
each. -/
def Glwe.valid (ct : Glwe R) (k N : Nat) : Prop := ct.a.length = k ∧ (∀ p ∈ ct.a, p.length = N) ∧ ct.b.length = N

/-- The loop `for (a_i, s_i) in a.zip(s) { polynomial_external_mad(&mut tmp, a_i, s_i) }`
(ops/encryption/glwe_encryption.rs:36-43 and 118-120). -/
def madAll (tmp : List R) : List (List R) → List (List R) → Option (List R)
  | a :: as, s :: ss => match polyMad tmp a s with | none => none | some t => madAll t as ss
  | _, _ => some tmp

/-- glwe_encryption.rs:51-63: no noise when `params.std` is zero, else add the draws, in `encrypt_glwe_ciphertext_secret_generic`
(`sunscreen_tfhe/src/ops/encryption/glwe_encryption.rs`): `none` means that no noise is drawn. -/
def addNoise (b : List R) : Option (List R) → List R
  | none => b
  | some e => polyAddAssign b e

/-- sunscreen_tfhe/src/ops/encryption/glwe_encryption.rs:22-63 `encrypt_glwe_ciphertext_secret_generic` into the buffer
`buf`. `masks` are the uniform draws, `noise` is `none` when `params.std` is zero. Note that `b` is accumulated into, not
overwritten. -/
def glweEncrypt (N : Nat) (buf : Glwe R) (msg : List R) (sk : List (List R)) (masks : List (List R)) (noise : Option (List R)) :
    Option (Glwe R) :=
  match madAll (List.replicate N 0) masks sk with
  | none => none
  | some tmp =>
    let b := polyAddAssign buf.b tmp
    let b := polyAddAssign b msg
    let b := addNoise b noise
    some ⟨zipAssign (fun _ m => m) buf.a masks, b⟩

/-- sunscreen_tfhe/src/ops/encryption/glwe_encryption.rs:79-98 `trivially_encrypt_glwe_ciphertext`; `clone_from_ref`
requires equal lengths. -/
def glweTrivial (buf : Glwe R) (msg : List R) : Option (Glwe R) :=
  if buf.b.length = msg.length then some ⟨buf.a.map fun p => p.map fun _ => 0, msg⟩ else none

/-- sunscreen_tfhe/src/ops/encryption/glwe_encryption.rs:104-126 `decrypt_glwe_ciphertext`. -/
def glweDecrypt (ct : Glwe R) (sk : List (List R)) : Option (List R) :=
  match madAll (List.replicate ct.b.length 0) ct.a sk with
  | none => none
  | some tmp => some (polySubAssign ct.b tmp)

/-- sunscreen_tfhe/src/ops/ciphertext/glwe_ciphertext_ops.rs:65-72, one polynomial of `sample_extract`. -/
def extractRow (N h : Nat) (a : List R) : List R :=
  (List.range N).map fun j => if j ≤ h then a.getD (h - j) 0 else -(a.getD (h + N - j) 0)

/-- sunscreen_tfhe/src/ops/ciphertext/glwe_ciphertext_ops.rs:31-76 `sample_extract` (every element of the output is
overwritten, so the buffer is left out). -/
def sampleExtract (N h : Nat) (ct : Glwe R) : Option (Lwe R) :=
  if h < N then some ⟨(ct.a.map (extractRow N h)).flatten, ct.b.getD h 0⟩ else none

/-- sunscreen_tfhe/src/entities/glwe_secret_key.rs:156-158 `to_lwe_secret_key`: the same flat slice. -/
def toLweKey (sk : List (List R)) : List R := sk.flatten

/-- The loops `for (c, (a, b)) in c_a.zip(a_a.zip(b_a)) { polynomial_add(c, a, b) }`
(ops/ciphertext/glwe_ciphertext_ops.rs:94-96, 136-138) over equally many polynomials. -/
def zipPolys (f : List R → List R → Option (List R)) : List (List R) → List (List R) → Option (List (List R))
  | a :: as, b :: bs => match f a b, zipPolys f as bs with | some x, some xs => some (x :: xs) | _, _ => none
  | [], [] => some []
  | _, _ => none

/-- sunscreen_tfhe/src/ops/ciphertext/glwe_ciphertext_ops.rs:79-99 `add_glwe_ciphertexts` and 102-118
`glwe_add_assign` (equal on ciphertexts of equal shape). -/
def glweAdd (a b : Glwe R) : Option (Glwe R) :=
  match zipPolys polyAdd a.a b.a, polyAdd a.b b.b with | some x, some y => some ⟨x, y⟩ | _, _ => none

/-- sunscreen_tfhe/src/ops/ciphertext/glwe_ciphertext_ops.rs:121-141 `sub_glwe_ciphertexts`. -/
def glweSub (a b : Glwe R) : Option (Glwe R) :=
  match zipPolys polySub a.a b.a, polySub a.b b.b with | some x, some y => some ⟨x, y⟩ | _, _ => none

/-- sunscreen_tfhe/src/ops/ciphertext/glwe_ciphertext_ops.rs:147-156 `glwe_negate_inplace`. -/
def glweNeg (a : Glwe R) : Glwe R := ⟨a.a.map polyNegate, polyNegate a.b⟩

/-- sunscreen_tfhe/src/ops/ciphertext/glwe_ciphertext_ops.rs:164-183 `glwe_polynomial_mad`: `c += a * p`. -/
def glwePolyMad (c a : Glwe R) (p : List R) : Option (Glwe R) :=
  match zipPolys (fun c a => polyMad c a p) c.a a.a, polyMad c.b a.b p with | some x, some y => some ⟨x, y⟩ | _, _ => none

/-- sunscreen_tfhe/src/ops/ciphertext/glwe_ciphertext_ops.rs:189-202 `glwe_scalar_mad`: `c += s * a`. -/
def glweScalarMad (c a : Glwe R) (s : R) : Option (Glwe R) :=
  match zipPolys (fun c a => some (polyScalarMad c a s)) c.a a.a with
  | some x => some ⟨x, polyScalarMad c.b a.b s⟩
  | none => none

/-- sunscreen_tfhe/src/ops/ciphertext/glwe_ciphertext_ops.rs:285-305 `glwe_rotate`: add `rotation` to every coefficient of
the body. -/
def glweRotate (c : Glwe R) (rotation : R) : Glwe R := ⟨c.a, c.b.map (· + rotation)⟩

/-- Multiply every polynomial of a ciphertext by `X^degree`
(sunscreen_tfhe/src/ops/bootstrapping/blind_rotation.rs:78-97 `rotate_glwe_monomial_negacyclic`). -/
def glweMonomial (c : Glwe R) (d : Int) : Option (Glwe R) :=
  match c.a.mapM (fun p => mulByMonomial p d), mulByMonomial c.b d with | some x, some y => some ⟨x, y⟩ | _, _ => none

end Spf.Tfhe
