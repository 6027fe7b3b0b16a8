import Verif.Model.CircuitBootstrap
/-! Model of private functional keyswitching of `sunscreen_tfhe` and of circuit bootstrapping through it. Conventions of
`Model/Gadget`. The secret map of the caller is a function of the old contents of the output polynomial and of the torus
elements; `none` = panic. -/
namespace Spf.Tfhe

variable {W : Nat}

/-- sunscreen_tfhe/src/ops/keyswitch/private_functional_keyswitch.rs:86-97, the loop over the GLWE ciphertexts of one GLev from
index `j`: the map is applied to a cleared polynomial and to the `p` torus elements that are zero but for the scaled key
element at `z`. -/
def pfkGlev (N p : Nat) (r : Radix) (map : List (BitVec W) → List (BitVec W) → Option (List (BitVec W))) (z : Nat) (s : BitVec W)
    (sk : List (List (BitVec W))) (masks : Nat → List (List (BitVec W))) (noise : Nat → Option (List (BitVec W))) :
    Nat → List (Glwe (BitVec W)) → Option (List (Glwe (BitVec W)))
  | _, [] => some []
  | j, buf :: bufs =>
    match map (List.replicate N 0) ((List.replicate p 0).set z (scaleByFactor s j r)) with
    | none => none
    | some pt => match glweEncrypt N buf pt sk (masks j) (noise j) with
      | none => none
      | some ct => match pfkGlev N p r map z s sk masks noise (j + 1) bufs with
        | none => none
        | some cts => some (ct :: cts)

/-- private_functional_keyswitch.rs:72-98, the loop over the elements of the LWE key and `-1`, zipped with the GLevs of one
chunk, from index `i`. -/
def pfkChunk (N p : Nat) (r : Radix) (map : List (BitVec W) → List (BitVec W) → Option (List (BitVec W))) (z : Nat) (sk : List (List (BitVec W)))
    (masks : Nat → Nat → List (List (BitVec W))) (noise : Nat → Nat → Option (List (BitVec W))) :
    Nat → List (BitVec W) → List (List (Glwe (BitVec W))) → Option (List (List (Glwe (BitVec W))))
  | i, s :: ss, row :: rows =>
    match pfkGlev N p r map z s sk (masks i) (noise i) 0 row with
    | none => none
    | some g => match pfkChunk N p r map z sk masks noise (i + 1) ss rows with
      | none => none
      | some gs => some (g :: gs)
  | _, _, rows => some rows

/-- private_functional_keyswitch.rs:64-99, the loop over `z` (`c` to go), zipped with the chunks of `n + 1` GLevs. The loops run
in parallel in the code; they write to disjoint parts of the key, so the order does not matter. -/
def pfkLoop (n N p : Nat) (r : Radix) (map : List (BitVec W) → List (BitVec W) → Option (List (BitVec W))) (from_ : List (BitVec W))
    (sk : List (List (BitVec W))) (masks : Nat → Nat → Nat → List (List (BitVec W))) (noise : Nat → Nat → Nat → Option (List (BitVec W))) :
    Nat → Nat → List (List (Glwe (BitVec W))) → Option (List (List (Glwe (BitVec W))))
  | 0, _, rows => some rows
  | c + 1, z, rows =>
    match pfkChunk N p r map z sk (masks z) (noise z) 0 (from_ ++ [-1]) (rows.take (n + 1)) with
    | none => none
    | some gs => match pfkLoop n N p r map from_ sk masks noise c (z + 1) (rows.drop (n + 1)) with
      | none => none
      | some rest => some (gs ++ rest)

/-- The size check `assert_is_valid((from_lwe.dim, to_glwe.dim, radix.count, lwe_count))`
(sunscreen_tfhe/src/entities/private_functional_keyswitch_key.rs:44-46): `p (n + 1)` GLevs. -/
def pfkShape (n k N p count : Nat) (key : List (List (Glwe (BitVec W)))) : Prop :=
  key.length = p * (n + 1) ∧ ∀ row ∈ key, row.length = count ∧ ∀ ct ∈ row, ct.valid k N

instance (k N : Nat) (ct : Glwe (BitVec W)) : Decidable (ct.valid k N) := by unfold Glwe.valid; infer_instance

instance (n k N p count : Nat) (key : List (List (Glwe (BitVec W)))) : Decidable (pfkShape n k N p count key) := by
  unfold pfkShape; infer_instance

/-- sunscreen_tfhe/src/ops/keyswitch/private_functional_keyswitch.rs:42-100 `generate_private_functional_keyswitch_key` into
`buf`: from LWE dimension `n` to GLWE dimension `k`, `N`, for `p` inputs. -/
def pfkGen (n k N p : Nat) (r : Radix) (map : List (BitVec W) → List (BitVec W) → Option (List (BitVec W))) (buf : List (List (Glwe (BitVec W))))
    (from_ : List (BitVec W)) (sk : List (List (BitVec W))) (masks : Nat → Nat → Nat → List (List (BitVec W)))
    (noise : Nat → Nat → Nat → Option (List (BitVec W))) : Option (List (List (Glwe (BitVec W)))) :=
  if pfkShape n k N p r.count buf ∧ r.valid W = true ∧ from_.length = n ∧ (sk.length = k ∧ ∀ s ∈ sk, s.length = N) ∧ 0 < k ∧ isPow2 N = true ∧ 0 < n ∧ 0 < p then
    pfkLoop n N p r map from_ sk masks noise p 0 buf
  else none

/-- sunscreen_tfhe/src/ops/ciphertext/glev_ciphertext_ops.rs:48-59 `decomposed_scalar_glev_mad`: `rows` is the reversed GLev. -/
def scalarGlevMad : List (BitVec W) → List (Glwe (BitVec W)) → Glwe (BitVec W) → Option (Glwe (BitVec W))
  | d :: ds, b :: bs, c => match glweScalarMad c b d with | none => none | some c => scalarGlevMad ds bs c
  | _, _, c => some c

/-- private_functional_keyswitch.rs:125-136, the two loops: `xs` are the elements `a || b` of all the inputs in order, one GLev
of the key for each; running out of GLevs panics. -/
def pfksLoop (r : Radix) : List (BitVec W) → List (List (Glwe (BitVec W))) → Glwe (BitVec W) → Option (Glwe (BitVec W))
  | [], _, c => some c
  | _ :: _, [], _ => none
  | x :: xs, row :: rows, c =>
    match radixDigits x r with
    | none => none
    | some ds => match scalarGlevMad ds row.reverse c with
      | none => none
      | some c => pfksLoop r xs rows c

/-- sunscreen_tfhe/src/ops/keyswitch/private_functional_keyswitch.rs:105-140 `private_functional_keyswitch` onto the output `out`,
which is not cleared. The inputs are only indexed up to `n` (line 131). -/
def pfks (n k N p : Nat) (r : Radix) (out : Glwe (BitVec W)) (inputs : List (Lwe (BitVec W))) (key : List (List (Glwe (BitVec W)))) :
    Option (Glwe (BitVec W)) :=
  if out.valid k N ∧ pfkShape n k N p r.count key ∧ 0 < n ∧ 0 < k ∧ isPow2 N = true ∧ r.valid W = true ∧ 0 < p ∧ inputs.length = p ∧ ∀ c ∈ inputs, n ≤ c.a.length then
    match pfksLoop r (inputs.flatMap fun c => (c.a ++ [c.b]).take (n + 1)) key out with
    | none => none
    | some c => some (glweNeg c)
  else none

/-- private_functional_keyswitch.rs:167-171, the map of the key for the GLWE key polynomial `s`: coefficient `i` becomes `-x s_i`. -/
def negMulMap (s : List (BitVec W)) (poly x : List (BitVec W)) : Option (List (BitVec W)) :=
  match x with
  | [] => none
  | x :: _ => some (zipAssign (fun _ a => -x * a) poly s)

/-- private_functional_keyswitch.rs:192-195, the map of the last key: the constant polynomial. -/
def constMap (poly x : List (BitVec W)) : Option (List (BitVec W)) :=
  match x, poly with
  | x :: _, _ :: cs => some (x :: cs.map fun _ => 0)
  | _, _ => none

/-- private_functional_keyswitch.rs:162-185 and 189-206: one key for every polynomial of the GLWE key, from index `i`, then the
last key. -/
def cbskLoop (n k N : Nat) (r : Radix) (from_ : List (BitVec W)) (sk : List (List (BitVec W))) (masks : Nat → Nat → Nat → List (List (BitVec W)))
    (noise : Nat → Nat → Nat → Option (List (BitVec W))) : Nat → List (List (BitVec W)) → List (List (List (Glwe (BitVec W)))) →
    Option (List (List (List (Glwe (BitVec W)))))
  | i, s :: ss, buf :: bufs =>
    match pfkGen n k N 1 r (negMulMap s) buf from_ sk (fun _ => masks i) (fun _ => noise i) with
    | none => none
    | some key => match cbskLoop n k N r from_ sk masks noise (i + 1) ss bufs with
      | none => none
      | some keys => some (key :: keys)
  | i, [], buf :: bufs => match pfkGen n k N 1 r constMap buf from_ sk (fun _ => masks i) (fun _ => noise i) with
    | none => none
    | some key => some (key :: bufs)
  | _, _, [] => none

/-- sunscreen_tfhe/src/ops/keyswitch/private_functional_keyswitch.rs:143-207 `generate_circuit_bootstrapping_pfks_keys`; the
buffer must hold `k + 1` keys (line 151). -/
def cbskGen (n k N : Nat) (r : Radix) (buf : List (List (List (Glwe (BitVec W))))) (from_ : List (BitVec W)) (sk : List (List (BitVec W)))
    (masks : Nat → Nat → Nat → List (List (BitVec W))) (noise : Nat → Nat → Nat → Option (List (BitVec W))) :
    Option (List (List (List (Glwe (BitVec W))))) :=
  if buf.length = k + 1 ∧ sk.length = k then cbskLoop n k N r from_ sk masks noise 0 sk buf else none

/-- sunscreen_tfhe/src/ops/bootstrapping/circuit_bootstrapping.rs:236-251, `extract_and_rotate_lo_noise_glwe` from level `i`, `c`
to go (every output is overwritten). `n` is the dimension of the extracted ciphertexts. -/
def extractRotate (n N : Nat) (rc : Radix) (x : Glwe (BitVec W)) : Nat → Nat → Option (List (Lwe (BitVec W)))
  | 0, _ => some []
  | c + 1, i =>
    match encode (1#W) (rc.log * (i + 1) + 1), sampleExtract N i x with
    | some one, some l => match lweRotate n l one with
      | none => none
      | some y => match extractRotate n N rc x c (i + 1) with
        | none => none
        | some ys => some (y :: ys)
    | _, _ => none

/-- circuit_bootstrapping.rs:502-517, the inner loop: one GLev of the output. -/
def pfksRow (n k N : Nat) (r : Radix) (key : List (List (Glwe (BitVec W)))) : List (Lwe (BitVec W)) → List (Glwe (BitVec W)) → Option (List (Glwe (BitVec W)))
  | l :: ls, g :: gs => match pfks n k N 1 r g [l] key with
    | none => none
    | some x => match pfksRow n k N r key ls gs with
      | none => none
      | some xs => some (x :: xs)
  | _, gs => some gs

/-- sunscreen_tfhe/src/ops/bootstrapping/circuit_bootstrapping.rs:485-519 `apply_pfks_on_ggsw_components` onto `out`. -/
def pfksRows (n k N : Nat) (r : Radix) (ls : List (Lwe (BitVec W))) : List (List (Glwe (BitVec W))) → List (List (List (Glwe (BitVec W)))) →
    Option (List (List (Glwe (BitVec W))))
  | row :: rows, key :: keys => match pfksRow n k N r key ls row with
    | none => none
    | some x => match pfksRows n k N r ls rows keys with
      | none => none
      | some xs => some (x :: xs)
  | rows, _ => some rows

/-- sunscreen_tfhe/src/ops/bootstrapping/circuit_bootstrapping.rs:162-219 `circuit_bootstrap_via_pfks` onto `out`: `n` is the LWE
dimension of the input, `k2`, `N2` the GLWE dimension of the bootstrap, `k`, `N` that of the output. The shape checks of the keys
and of the output are those of `pfks` and `hiToLo`. -/
def cbsPfks (n k2 N2 k N : Nat) (rp rc rf : Radix) (fe : Nat → Glwe (BitVec W)) (out : List (List (Glwe (BitVec W)))) (input : Lwe (BitVec W))
    (bsk : List (List (List (Glwe (BitVec W))))) (cbsk : List (List (List (Glwe (BitVec W))))) : Option (List (List (Glwe (BitVec W)))) :=
  match hiToLo n k2 N2 rp rc fe input bsk with
  | none => none
  | some lo => match extractRotate (k2 * N2) N2 rc lo rc.count 0 with
    | none => none
    | some ls => pfksRows (k2 * N2) k N rf ls out cbsk

end Spf.Tfhe
