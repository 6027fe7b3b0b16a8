import Verif.Model.Dst
import Verif.Model.Glwe
/-! Model of the layout of ciphertexts and keys in flat slices: the sizes (`OverlaySize::size`) and the accessors of
`sunscreen_tfhe/src/entities/`. The other models use structured values (lists of polynomials, of ciphertexts, …) in
place of the slices; C98 shows that this is no loss. `none` is a panic. -/
namespace Spf.Layout
open Spf.Dst Spf.Tfhe
variable {α β : Type}

/-- sunscreen_tfhe/src/entities/lwe_ciphertext.rs:30-32. -/
def lweSize (n : Nat) : Nat := n + 1
/-- sunscreen_tfhe/src/entities/glwe_secret_key.rs:43-45 (a polynomial has `N` coefficients, polynomial.rs:35-37). -/
def glweKeySize (k N : Nat) : Nat := N * k
/-- sunscreen_tfhe/src/entities/glwe_ciphertext.rs:38-41. -/
def glweSize (k N : Nat) : Nat := glweKeySize k N + N
/-- sunscreen_tfhe/src/entities/glev_ciphertext.rs:29-31. -/
def glevSize (k N l : Nat) : Nat := glweSize k N * l
/-- sunscreen_tfhe/src/entities/ggsw_ciphertext.rs:31-33. -/
def ggswSize (k N l : Nat) : Nat := glevSize k N l * (k + 1)
/-- sunscreen_tfhe/src/entities/bootstrap_key.rs:28-30. -/
def bskSize (n k N l : Nat) : Nat := ggswSize k N l * n
/-- sunscreen_tfhe/src/entities/glwe_keyswitch_key.rs:31-33. -/
def glweKskSize (k N l : Nat) : Nat := glevSize k N l * k
/-- sunscreen_tfhe/src/entities/automorphism_key.rs:26-28. -/
def akSize (k N l : Nat) : Nat := glweKskSize k N l * N.log2
/-- sunscreen_tfhe/src/entities/lev_ciphertext.rs:24-26. -/
def levSize (n l : Nat) : Nat := lweSize n * l
/-- sunscreen_tfhe/src/entities/lwe_keyswitch_key.rs:27-36. -/
def lweKskSize (old new l : Nat) : Nat := levSize new l * old
/-- sunscreen_tfhe/src/entities/lwe_public_key.rs:41-43. -/
def lwePkSize (n : Nat) : Nat := lweSize n * n
/-- sunscreen_tfhe/src/entities/scheme_switch_key.rs:15-17, 42-53. -/
def sskSize (k N l : Nat) : Nat := glweSize k N * l * ((k * (k + 1)) / 2)
/-- sunscreen_tfhe/src/entities/private_functional_keyswitch_key.rs `size`: one GLev ciphertext for each of the `n + 1` elements of each of
`count` input ciphertexts. -/
def pfksKeySize (n k N l count : Nat) : Nat := glevSize k N l * (n + 1) * count
/-- sunscreen_tfhe/src/entities/circuit_bootstrapping_private_keyswitch_keys.rs:28-35. -/
def cbsKeySize (n k N l : Nat) : Nat := pfksKeySize n k N l 1 * (k + 1)
/-- sunscreen_tfhe/src/entities/glwe_ciphertext_fft.rs:25-28 with sunscreen_tfhe/src/entities/polynomial_fft.rs:38-40. -/
def glweFftSize (k N : Nat) : Nat := (N / 2) * (k + 1)

/-- `OverlaySize::check_is_valid`, sunscreen_tfhe/src/dst.rs:510-516. -/
def checkIsValid (data : List α) (size : Nat) : Bool := data.length == size

/-- `split_at`: panics beyond the end. -/
def splitAt (data : List α) (i : Nat) : Option (List α × List α) :=
  if i ≤ data.length then some (data.take i, data.drop i) else none

/-- `LweCiphertextRef::a_b`, sunscreen_tfhe/src/entities/lwe_ciphertext.rs (`split_at`, then `&b[0]`). -/
def viewLwe (n : Nat) (data : List α) : Option (Lwe α) := do
  let (a, b) ← splitAt data n
  let b ← b[0]?
  some ⟨a, b⟩

/-- `GlweCiphertextRef::a_b`, sunscreen_tfhe/src/entities/glwe_ciphertext.rs:83-94, 136-138. -/
def viewGlwe (k N : Nat) (data : List α) : Option (Glwe α) := do
  let (a, b) ← splitAt data (k * N)
  let a ← items a N
  some ⟨a, b⟩

/-- `GlweCiphertextFftRef::a_b`, sunscreen_tfhe/src/entities/glwe_ciphertext_fft.rs `a_b`, `split_idx`. -/
def viewGlweFft (k N : Nat) (data : List α) : Option (Glwe α) := do
  let (a, b) ← splitAt data (k * N / 2)
  let a ← items a (N / 2)
  some ⟨a, b⟩

/-- All items of an entity made of items of `stride` elements, each read by `view`. -/
def viewMany (stride : Nat) (view : List α → Option β) (data : List α) : Option (List β) := do
  let cs ← items data stride
  cs.mapM view

/-- `s` of a GLWE secret key, sunscreen_tfhe/src/entities/glwe_secret_key.rs `s`. -/
def viewGlweKey (N : Nat) (data : List α) : Option (List (List α)) := items data N
/-- `GlevCiphertextRef::glwe_ciphertexts`, sunscreen_tfhe/src/entities/glev_ciphertext.rs:51-53. -/
def viewGlev (k N : Nat) : List α → Option (List (Glwe α)) := viewMany (glweSize k N) (viewGlwe k N)
/-- `GgswCiphertextRef::rows`, sunscreen_tfhe/src/entities/ggsw_ciphertext.rs `rows`. -/
def viewGgsw (k N l : Nat) : List α → Option (List (List (Glwe α))) := viewMany (glevSize k N l) (viewGlev k N)
/-- `BootstrapKeyRef::rows`, sunscreen_tfhe/src/entities/bootstrap_key.rs `rows`. -/
def viewBsk (k N l : Nat) : List α → Option (List (List (List (Glwe α)))) := viewMany (ggswSize k N l) (viewGgsw k N l)
/-- `GlweKeyswitchKeyRef::rows`, sunscreen_tfhe/src/entities/glwe_keyswitch_key.rs `rows`, and the GLev ciphertexts of scheme switch and
private functional keyswitch keys (`glev_ciphertexts`, scheme_switch_key.rs; `glevs`, private_functional_keyswitch_key.rs). -/
def viewGlevs (k N l : Nat) : List α → Option (List (List (Glwe α))) := viewMany (glevSize k N l) (viewGlev k N)
/-- `AutomorphismKeyRef::keyswitch_keys`, sunscreen_tfhe/src/entities/automorphism_key.rs `keyswitch_keys`. -/
def viewAk (k N l : Nat) : List α → Option (List (List (List (Glwe α)))) := viewMany (glweKskSize k N l) (viewGlevs k N l)
/-- `keys`, sunscreen_tfhe/src/entities/circuit_bootstrapping_private_keyswitch_keys.rs `keys`. -/
def viewCbsKeys (n k N l : Nat) : List α → Option (List (List (List (Glwe α)))) := viewMany (pfksKeySize n k N l 1) (viewGlevs k N l)
/-- `LevCiphertextRef::lwe_ciphertexts`, sunscreen_tfhe/src/entities/lev_ciphertext.rs `lwe_ciphertexts`, and `LwePublicKeyRef::enc_zeros`,
sunscreen_tfhe/src/entities/lwe_public_key.rs:75-77. -/
def viewLwes (n : Nat) : List α → Option (List (Lwe α)) := viewMany (lweSize n) (viewLwe n)
/-- `LweKeyswitchKeyRef::rows`, sunscreen_tfhe/src/entities/lwe_keyswitch_key.rs `rows`. -/
def viewLweKsk (new l : Nat) : List α → Option (List (List (Lwe α))) := viewMany (levSize new l) (viewLwes new)

end Spf.Layout
