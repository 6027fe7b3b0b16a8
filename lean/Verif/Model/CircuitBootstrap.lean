import Verif.Model.Pbs
import Verif.Model.GlweKs
import Verif.Model.SchemeSwitch
/-! Model of circuit bootstrapping by trace and scheme switching of `sunscreen_tfhe`. Conventions of `Model/Gadget`. -/
namespace Spf.Tfhe

variable {W : Nat}

/-- One coefficient of sunscreen_tfhe/src/math/simd/scalar.rs:134-143 (and x86_64/avx2.rs:127-135) `vector_shr_round`.
`none`: `n - 1` underflows for `n = 0`; a shift by the width or more is an overflow. -/
def shrRound (n : Nat) (x : BitVec W) : Option (BitVec W) :=
  if 0 < n ∧ n < W then some ((x >>> n) + ((x >>> (n - 1)) &&& 1#W)) else none

/-- sunscreen_tfhe/src/ops/ciphertext/glwe_ciphertext_ops.rs:268-281 `glwe_mod_switch_and_expand_pow_2` with
ops/polynomial/mod.rs:91-96 `polynomial_shr_round`; every coefficient of the output is overwritten. -/
def glweShrRound (n : Nat) (x : Glwe (BitVec W)) : Option (Glwe (BitVec W)) :=
  match x.a.mapM (fun p => p.mapM (shrRound n)), x.b.mapM (shrRound n) with
  | some a, some b => some ⟨a, b⟩
  | _, _ => none

/-- sunscreen_tfhe/src/ops/bootstrapping/circuit_bootstrapping.rs:441-460, `levels[i]` (zero where the loop does not write). -/
def cbsLevel (W log i : Nat) : Option (BitVec W) :=
  if (i + 1) * log + 1 < W then encode (((1#W) <<< (log * (i + 1) + 1)) - 1#W) (log * (i + 1) + 1) else some 0

/-- circuit_bootstrapping.rs:471-486, the value of coefficient `i` of the table. -/
def cbsEntry (W : Nat) (r : Radix) (v i : Nat) : Option (BitVec W) :=
  if i % v < r.count then cbsLevel W r.log (i % v) else some 0

/-- sunscreen_tfhe/src/ops/bootstrapping/circuit_bootstrapping.rs:432-487 `fill_multifunctional_cbs_decomposition_lut`: all
mask polynomials are cleared (437); 16 levels at most (442). The levels are computed where they are used. -/
def cbsLut (W k N : Nat) (r : Radix) : Option (Glwe (BitVec W)) :=
  if r.count < 16 then
    match ceilLog2 r.count with
    | none => none
    | some logV => match (List.range N).mapM (cbsEntry W r (2 ^ logV)) with
      | none => none
      | some b => some ⟨List.replicate k (List.replicate N 0), b⟩
  else none

/-- sunscreen_tfhe/src/ops/bootstrapping/circuit_bootstrapping.rs:385-430 `hi_noise_lwe_to_lo_noise_glwe`; `n` is the LWE
dimension, `rp` the radix of the bootstrap, `rc` that of the GGSW output. -/
def hiToLo (n k N : Nat) (rp rc : Radix) (fe : Nat → Glwe (BitVec W)) (input : Lwe (BitVec W)) (bsk : List (List (List (Glwe (BitVec W))))) :
    Option (Glwe (BitVec W)) :=
  if rc.count < 8 then
    match encode (1#W) 2 with
    | none => none
    | some q4 => match lweRotate n input q4, ceilLog2 rc.count, cbsLut W k N rc with
      | some rot, some logV, some lut => generalizedPbs n k N rp 0 logV fe rot lut bsk
      | _, _, _ => none
  else none

/-- circuit_bootstrapping.rs:281-297, the loop over the GLWE ciphertexts of the GLev output (each overwritten by `trace`)
from level `i`, `c` to go: `rot` is `glwe_rotated`, which accumulates; `junk i` the scratch memory of `trace`. Writing to
coefficient `i` beyond the polynomial panics. -/
def cbsTraceLoop (d N : Nat) (rt rc : Radix) (fe : Nat → Nat → Glwe (BitVec W)) (junk : Nat → Glwe (BitVec W))
    (ak : List (List (List (Glwe (BitVec W))))) : Nat → Nat → Glwe (BitVec W) → Option (List (Glwe (BitVec W)))
  | 0, _, _ => some []
  | c + 1, i, rot =>
    match encode (1#W) (rc.log * (i + 1) + 1) with
    | none => none
    | some one =>
      if i < rot.b.length then
        let rot : Glwe (BitVec W) := ⟨rot.a, rot.b.modify i (· + one)⟩
        match glweMonomial rot (-(i : Int)) with
        | none => none
        | some perm => match glweShrRound (Nat.log2 N) perm with
          | none => none
          | some sh => match trace d N rt (fe i) (junk i) sh ak with
            | none => none
            | some y => match cbsTraceLoop d N rt rc fe junk ak c (i + 1) rot with
              | none => none
              | some ys => some (y :: ys)
      else none

/-- sunscreen_tfhe/src/ops/bootstrapping/circuit_bootstrapping.rs:260-298 `mod_switch_trace_and_rotate`. -/
def modSwitchTraceRotate (d N : Nat) (rt rc : Radix) (fe : Nat → Nat → Glwe (BitVec W)) (junk : Nat → Glwe (BitVec W)) (x : Glwe (BitVec W))
    (ak : List (List (List (Glwe (BitVec W))))) : Option (List (Glwe (BitVec W))) :=
  cbsTraceLoop d N rt rc fe junk ak rc.count 0 x

/-- sunscreen_tfhe/src/ops/bootstrapping/circuit_bootstrapping.rs:342-383 `circuit_bootstrap_via_trace_and_scheme_switch`
into the output `out`; `n` is the LWE dimension of the input, `d`, `N` the GLWE dimension; radixes of the bootstrap `rp`,
the trace `rt`, the scheme switch `rs`, the output `rc`; `feP`, `feT` the Fourier errors of the bootstrap and of the traces. -/
def circuitBootstrap (n d N : Nat) (rp rt rs rc : Radix) (feP : Nat → Glwe (BitVec W)) (feT : Nat → Nat → Glwe (BitVec W))
    (junk : Nat → Glwe (BitVec W)) (out : List (List (Glwe (BitVec W)))) (input : Lwe (BitVec W)) (bsk ak : List (List (List (Glwe (BitVec W)))))
    (ssk : List (List (Glwe (BitVec W)))) : Option (List (List (Glwe (BitVec W)))) :=
  match hiToLo n d N rp rc feP input bsk with
  | none => none
  | some lo => match modSwitchTraceRotate d N rt rc feT junk lo ak with
    | none => none
    | some glev => schemeSwitchFft d N rc rs out glev ssk

end Spf.Tfhe
