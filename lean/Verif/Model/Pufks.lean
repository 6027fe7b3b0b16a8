import Verif.Model.Pfks
/-! Model of public functional keyswitching of `sunscreen_tfhe`. Conventions of `Model/Gadget` and `Model/Pfks`. -/
namespace Spf.Tfhe

variable {W : Nat}

/-- sunscreen_tfhe/src/ops/keyswitch/public_functional_keyswitch.rs:45-51, the loop over the GLWE ciphertexts of one GLev from
index `j`: the plaintext is zero but for the scaled key element in coefficient 0 (`pt`, cleared at 42). -/
def pufkGlev (N : Nat) (r : Radix) (s : BitVec W) (sk : List (List (BitVec W))) (masks : Nat → List (List (BitVec W)))
    (noise : Nat → Option (List (BitVec W))) : Nat → List (Glwe (BitVec W)) → Option (List (Glwe (BitVec W)))
  | _, [] => some []
  | j, buf :: bufs =>
    match glweEncrypt N buf ((List.replicate N 0).set 0 (scaleByFactor s j r)) sk (masks j) (noise j) with
    | none => none
    | some ct => match pufkGlev N r s sk masks noise (j + 1) bufs with
      | none => none
      | some cts => some (ct :: cts)

/-- public_functional_keyswitch.rs:44-52, the loop over the elements of the LWE key, zipped with the GLevs, from index `i`. -/
def pufkLoop (N : Nat) (r : Radix) (sk : List (List (BitVec W))) (masks : Nat → Nat → List (List (BitVec W)))
    (noise : Nat → Nat → Option (List (BitVec W))) : Nat → List (BitVec W) → List (List (Glwe (BitVec W))) → Option (List (List (Glwe (BitVec W))))
  | i, s :: ss, row :: rows =>
    match pufkGlev N r s sk (masks i) (noise i) 0 row with
    | none => none
    | some g => match pufkLoop N r sk masks noise (i + 1) ss rows with
      | none => none
      | some gs => some (g :: gs)
  | _, _, rows => some rows

/-- The size check `assert_is_valid((from_lwe.dim, to_glwe.dim, radix.count))`
(sunscreen_tfhe/src/entities/public_functional_keyswitch_key.rs:26-28): `n` GLevs. -/
def pufkShape (n k N count : Nat) (key : List (List (Glwe (BitVec W)))) : Prop :=
  key.length = n ∧ ∀ row ∈ key, row.length = count ∧ ∀ ct ∈ row, ct.valid k N

instance (n k N count : Nat) (key : List (List (Glwe (BitVec W)))) : Decidable (pufkShape n k N count key) := by
  unfold pufkShape; infer_instance

/-- sunscreen_tfhe/src/ops/keyswitch/public_functional_keyswitch.rs:29-53 `generate_public_functional_keyswitch_key` into `buf`. -/
def pufkGen (n k N : Nat) (r : Radix) (buf : List (List (Glwe (BitVec W)))) (from_ : List (BitVec W)) (sk : List (List (BitVec W)))
    (masks : Nat → Nat → List (List (BitVec W))) (noise : Nat → Nat → Option (List (BitVec W))) : Option (List (List (Glwe (BitVec W)))) :=
  if from_.length = n ∧ (sk.length = k ∧ ∀ s ∈ sk, s.length = N) ∧ pufkShape n k N r.count buf then
    pufkLoop N r sk masks noise 0 from_ buf
  else none

/-- public_functional_keyswitch.rs:118-131, the loop over the rows of the key from row `i`: element `i` of the masks of all the
inputs (119-121; the index is in bounds, since the key has as many rows as the masks have elements), the caller's map applied to what the polynomial `poly` holds (125), decomposition and accumulation
(127-130). -/
def pufksLoop (N : Nat) (r : Radix) (f : List (BitVec W) → List (BitVec W) → Option (List (BitVec W))) (inputs : List (Lwe (BitVec W))) :
    Nat → List (List (Glwe (BitVec W))) → List (BitVec W) → Glwe (BitVec W) → Option (List (BitVec W) × Glwe (BitVec W))
  | _, [], poly, c => some (poly, c)
  | i, row :: rows, poly, c =>
    match f poly (inputs.map fun x => x.a.getD i 0) with
    | none => none
    | some poly => match polyDigits poly r with
      | none => none
      | some ds => match glevMad ds (List.replicate N 0) row.reverse c with
        | none => none
        | some c => pufksLoop N r f inputs (i + 1) rows poly c

/-- sunscreen_tfhe/src/ops/keyswitch/public_functional_keyswitch.rs:74-147 `public_functional_keyswitch`. `poly` is the contents of
the scratch polynomial (93-97), which is not cleared; the previous output is overwritten (98, 140), so it is not an argument.
The sum is accumulated in the Fourier domain and rounded by the inverse transform (140); `fe` is the difference to the exact
sum. -/
def pufks (n k N : Nat) (r : Radix) (fe : Glwe (BitVec W)) (poly : List (BitVec W)) (f : List (BitVec W) → List (BitVec W) → Option (List (BitVec W)))
    (inputs : List (Lwe (BitVec W))) (key : List (List (Glwe (BitVec W)))) : Option (Glwe (BitVec W)) :=
  if pufkShape n k N r.count key ∧ (∀ x ∈ inputs, x.a.length = n) ∧ inputs.length ≤ N then
    match pufksLoop N r f inputs 0 key poly (glweZero k N) with
    | none => none
    | some (poly, exact) => match f poly (inputs.map fun x => x.b), glweAdd exact fe with
      | some poly, some sum =>
        let c := glweNeg sum
        some ⟨c.a, polyAddAssign c.b poly⟩
      | _, _ => none
  else none

end Spf.Tfhe
