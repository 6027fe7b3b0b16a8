import Verif.Model.Pbs
/-! Model of blind rotation and of the CMUX of GLev ciphertexts of `sunscreen_tfhe`. Conventions of `Model/Gadget`. -/
namespace Spf.Tfhe

variable {W : Nat}

/-- sunscreen_tfhe/src/ops/bootstrapping/blind_rotation.rs:246-259, the loop of `generate_blind_rotation_shift` over the rows (`c`
to go, from `i`): each bit of the rotation is encrypted into a new GGSW ciphertext (`GgswCiphertext::new`). -/
def shiftRows (k N : Nat) (r : Radix) (bits rotation : Nat) (sk : List (List (BitVec W))) (masks : Nat → Nat → Nat → List (List (BitVec W)))
    (noise : Nat → Nat → Nat → Option (List (BitVec W))) : Nat → Nat → Option (List (List (List (Glwe (BitVec W)))))
  | 0, _ => some []
  | c + 1, i =>
    match ggswEncryptScalar N r bits (List.replicate (k + 1) (List.replicate r.count (glweZero k N))) (BitVec.ofNat W ((rotation >>> i) &&& 1)) sk (masks i) (noise i) with
    | none => none
    | some g => match shiftRows k N r bits rotation sk masks noise c (i + 1) with
      | none => none
      | some gs => some (g :: gs)

/-- sunscreen_tfhe/src/ops/bootstrapping/blind_rotation.rs:234-260 `generate_blind_rotation_shift`. The output has `ilog2(N)` rows
(sunscreen_tfhe/src/entities/blind_rotation_shift.rs:27-31). -/
def shiftGen (k N : Nat) (r : Radix) (bits rotation : Nat) (sk : List (List (BitVec W))) (masks : Nat → Nat → Nat → List (List (BitVec W)))
    (noise : Nat → Nat → Nat → Option (List (BitVec W))) : Option (List (List (List (Glwe (BitVec W))))) :=
  if rotation < N then shiftRows k N r bits rotation sk masks noise (Nat.log2 N) 0 else none

/-- blind_rotation.rs:216-225, the loop of `blind_rotation` over the rows from `i`; `acc` is the output, `fe i` the Fourier rounding
error of the CMUX of row `i`. -/
def blindLoop (k N : Nat) (r : Radix) (fe : Nat → Glwe (BitVec W)) : Nat → List (List (List (Glwe (BitVec W)))) → Glwe (BitVec W) → Option (Glwe (BitVec W))
  | _, [], acc => some acc
  | i, g :: gs, acc =>
    match glweMonomial acc (-((2 ^ i : Nat) : Int)) with
    | none => none
    | some rot => match cmux k N r (fe i) acc rot g with
      | none => none
      | some acc => blindLoop k N r fe (i + 1) gs acc

/-- sunscreen_tfhe/src/ops/bootstrapping/blind_rotation.rs:202-226 `blind_rotation`; the output is overwritten (213). -/
def blindRotation (k N : Nat) (r : Radix) (fe : Nat → Glwe (BitVec W)) (index : List (List (List (Glwe (BitVec W))))) (ct : Glwe (BitVec W)) : Option (Glwe (BitVec W)) :=
  blindLoop k N r fe 0 index ct

/-- sunscreen_tfhe/src/ops/fft_ops.rs:203-221 `glev_cmux`: the CMUX of the GLWE ciphertexts of two GLevs, from index `j`. The three
GLevs are zipped; the output is overwritten (see `cmux`), here it is assumed to be as long as the inputs. -/
def glevCmux (k N : Nat) (r : Radix) (fe : Nat → Glwe (BitVec W)) (b : List (List (Glwe (BitVec W)))) : Nat → List (Glwe (BitVec W)) → List (Glwe (BitVec W)) →
    Option (List (Glwe (BitVec W)))
  | j, d0 :: d0s, d1 :: d1s => match cmux k N r (fe j) d0 d1 b with
    | none => none
    | some c => match glevCmux k N r fe b (j + 1) d0s d1s with
      | none => none
      | some cs => some (c :: cs)
  | _, _, _ => some []

end Spf.Tfhe
