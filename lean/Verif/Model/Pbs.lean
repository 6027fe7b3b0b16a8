import Verif.Model.Gadget
/-! Model of programmable bootstrapping: lookup tables, bootstrap keys, generalized, univariate and bivariate bootstrap
(sunscreen_tfhe/src/ops/bootstrapping/programmable_bootstrapping.rs). Torus elements are `BitVec W`. The Fourier transform
of the bootstrap key is the identity here; the rounding error of every CMUX is an argument (see `cmux`). `none` = panic. -/
namespace Spf.Tfhe

variable {W : Nat}

/-- programmable_bootstrapping.rs:136-140, `log_v`: `ilog2` rounded up; `ilog2` of zero panics (`maps` empty). -/
def ceilLog2 (v : Nat) : Option Nat :=
  if v = 0 then none else some (if isPow2 v then Nat.log2 v else Nat.log2 v + 1)

/-- programmable_bootstrapping.rs:154-166, the value written for slot `j` at offset `k` in the slot. A map is a partial
function (`none` = it panics). The shift is of a `u64`. -/
def lutEntry (W bits : Nat) (maps : List (Nat → Option Nat)) (ceilV j k : Nat) : Option (BitVec W) :=
  let fnId := k % ceilV
  match (match maps[fnId]? with | some f => f j | none => some 0) with
  | none => none
  | some x => if x < 2 ^ bits ∧ bits ≤ W ∧ W - bits < 64 then some (BitVec.ofNat W (x * 2 ^ (W - bits))) else none

/-- programmable_bootstrapping.rs:150-168, the loops that fill the table: coefficient `i` is offset `i % stride` of slot
`i / stride`; what is beyond the last slot keeps the contents of the buffer. -/
def lutFill (bits : Nat) (maps : List (Nat → Option Nat)) (ceilV stride : Nat) (buf : List (BitVec W)) : Option (List (BitVec W)) :=
  (List.range buf.length).mapM fun i =>
    if i < 2 ^ bits * stride then lutEntry W bits maps ceilV (i / stride) (i % stride) else some (buf.getD i 0)

/-- sunscreen_tfhe/src/ops/bootstrapping/programmable_bootstrapping.rs:123-185 `generate_lut` into the buffer `buf` of `N`
coefficients. `1 << plaintext_bits` is an `i32`: from 31 bits on the shift or the assertion `n >= p` fails. -/
def generateLut (bits : Nat) (maps : List (Nat → Option Nat)) (buf : List (BitVec W)) : Option (List (BitVec W)) :=
  match ceilLog2 maps.length with
  | none => none
  | some logV =>
    if bits < 31 ∧ 2 ^ bits ≤ buf.length then
      let stride := buf.length / 2 ^ bits
      match lutFill bits maps (2 ^ logV) stride buf with
      | none => none
      | some c => some (rotL (negateRange c 0 (stride / 2)) (stride / 2))
    else none

/-- sunscreen_tfhe/src/entities/univariate_lookup_table.rs:39-50 `trivial_from_fn`, 59-76 `trivivial_multifunctional` and
92-103 `fill_trivial_from_fns`: the table is written to a scratch polynomial `buf` (any contents) and trivially encrypted
into a new, all-zero ciphertext. -/
def lutNew (k N bits : Nat) (maps : List (Nat → Option Nat)) (buf : List (BitVec W)) : Option (Glwe (BitVec W)) :=
  match generateLut bits maps buf with
  | none => none
  | some p => glweTrivial (glweZero k N) p

/-- programmable_bootstrapping.rs:413-430 `bivariate_function` (`modulus` is a `u64`, so 64 bits or more panic). -/
def bivariateFn (bits : Nat) (f : Nat → Nat → Option Nat) (input : Nat) : Option Nat :=
  if bits < 64 then
    match f (input / 2 ^ bits % 2 ^ bits) (input % 2 ^ bits) with
    | none => none
    | some x => if x < 2 ^ bits then some x else none
  else none

/-- programmable_bootstrapping.rs:433-456 `generate_bivariate_lut` and entities/bivariate_lookup_table.rs:36-52, 77-94
`trivial_from_fn`. -/
def lutNew2 (k N bits carry : Nat) (f : Nat → Nat → Option Nat) (buf : List (BitVec W)) : Option (Glwe (BitVec W)) :=
  if bits ≤ carry then lutNew k N (bits + carry) [bivariateFn bits f] buf else none

/-- programmable_bootstrapping.rs:52-58, the loop over key elements and rows (a rayon parallel iterator; the rows are
disjoint), from row `i`. -/
def bskRows (N : Nat) (r : Radix) (skG : List (List (BitVec W))) (masks : Nat → Nat → Nat → List (List (BitVec W)))
    (noise : Nat → Nat → Nat → Option (List (BitVec W))) : Nat → List (BitVec W) → List (List (List (Glwe (BitVec W)))) →
    Option (List (List (List (Glwe (BitVec W)))))
  | i, s :: ss, buf :: bufs =>
    match ggswEncryptScalar N r 1 buf s skG (masks i) (noise i) with
    | none => none
    | some g => match bskRows N r skG masks noise (i + 1) ss bufs with
      | none => none
      | some gs => some (g :: gs)
  | _, _, bufs => some bufs

/-- sunscreen_tfhe/src/ops/bootstrapping/programmable_bootstrapping.rs:34-59 `generate_bootstrap_key`: the checks on the
parameters and on the number of rows (the shape of the rows is checked in the code by the total length). -/
def bskGen (n k N : Nat) (r : Radix) (buf : List (List (List (Glwe (BitVec W))))) (sk : List (BitVec W)) (skG : List (List (BitVec W)))
    (masks : Nat → Nat → Nat → List (List (BitVec W))) (noise : Nat → Nat → Nat → Option (List (BitVec W))) :
    Option (List (List (List (Glwe (BitVec W))))) :=
  if n ≠ 0 ∧ isPow2 N = true ∧ k ≠ 0 ∧ r.valid W = true ∧ buf.length = n ∧ skG.length = k ∧ sk.length = n then
    bskRows N r skG masks noise 0 sk buf
  else none

/-- sunscreen_tfhe/src/ops/ciphertext/lwe_ciphertext_ops.rs:98-128 `lwe_ciphertext_modulus_switch`. -/
def lweModSwitch (chi v logMod : Nat) (ct : Lwe (BitVec W)) : Option (Lwe (BitVec W)) :=
  match ct.a.mapM (fun x => modulusSwitch x chi v logMod), modulusSwitch ct.b chi v logMod with
  | some a, some b => some ⟨a, b⟩
  | _, _ => none

/-- programmable_bootstrapping.rs:393-409, the CMUX loop over the mask and the bootstrap key, from index `i`; `fe i` is the
Fourier rounding error of the `i`-th CMUX. -/
def pbsLoop (k N : Nat) (r : Radix) (fe : Nat → Glwe (BitVec W)) : Nat → List (BitVec W) → List (List (List (Glwe (BitVec W)))) →
    Glwe (BitVec W) → Option (Glwe (BitVec W))
  | i, a :: as, g :: gs, acc =>
    match glweMonomial acc (a.toNat : Int) with
    | none => none
    | some rot => match cmux k N r (fe i) acc rot g with
      | none => none
      | some acc => pbsLoop k N r fe (i + 1) as gs acc
  | _, _, _, acc => some acc

/-- sunscreen_tfhe/src/ops/bootstrapping/programmable_bootstrapping.rs:343-410 `generalized_programmable_bootstrap`; `n` is
the LWE dimension, `k`, `N` the GLWE dimension. The output is overwritten. -/
def generalizedPbs (n k N : Nat) (r : Radix) (chi v : Nat) (fe : Nat → Glwe (BitVec W)) (input : Lwe (BitVec W)) (lut : Glwe (BitVec W))
    (bsk : List (List (List (Glwe (BitVec W))))) : Option (Glwe (BitVec W)) :=
  if n ≠ 0 ∧ isPow2 N = true ∧ k ≠ 0 ∧ r.valid W = true ∧ bsk.length = n ∧ input.a.length = n then
    match lweModSwitch chi v (Nat.log2 N + 1) input with
    | none => none
    | some ct => match glweMonomial lut (-(ct.b.toNat : Int)) with
      | none => none
      | some acc => pbsLoop k N r fe 0 ct.a bsk acc
  else none

/-- sunscreen_tfhe/src/ops/bootstrapping/programmable_bootstrapping.rs:290-322 `programmable_bootstrap_univariate`. -/
def pbsUnivariate (n k N : Nat) (r : Radix) (fe : Nat → Glwe (BitVec W)) (input : Lwe (BitVec W)) (lut : Glwe (BitVec W))
    (bsk : List (List (List (Glwe (BitVec W))))) : Option (Lwe (BitVec W)) :=
  match generalizedPbs n k N r 0 0 fe input lut bsk with
  | none => none
  | some g => sampleExtract N 0 g

/-- sunscreen_tfhe/src/ops/bootstrapping/programmable_bootstrapping.rs:587-641 `programmable_bootstrap_bivariate`
(`1 << plaintext_bits` is an `i32`). -/
def pbsBivariate (n k N : Nat) (r : Radix) (bits : Nat) (fe : Nat → Glwe (BitVec W)) (left right : Lwe (BitVec W)) (lut : Glwe (BitVec W))
    (bsk : List (List (List (Glwe (BitVec W))))) : Option (Lwe (BitVec W)) :=
  if bits < 31 then
    match lweScalarMad (lweZero n) (BitVec.ofNat W (2 ^ bits)) left with
    | none => none
    | some x => match lweAdd x right with
      | none => none
      | some x => pbsUnivariate n k N r fe x lut bsk
  else none

/-- sunscreen_tfhe/src/high_level.rs:598-611, the decoding of `decrypt_lwe_with_carry` (`u64`): only the low `bits` of the
`bits + carry` decoded bits are kept. The addition panics on overflow. -/
def decodeCarry (x : BitVec 64) (bits carry : Nat) : Option (BitVec 64) :=
  if bits < 64 ∧ bits + carry < 64 then
    match addC (wrapShr x (64 - bits - carry)) (wrapShr x (64 - bits - carry - 1) &&& 1#64) with
    | none => none
    | some y => some (y &&& (BitVec.ofNat 64 (2 ^ bits) - 1#64))
  else none

end Spf.Tfhe
