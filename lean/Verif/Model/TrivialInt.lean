import Verif.Model.EncInt
/-! Trivial encryptions of integers, bit by bit: `DynamicGenericInt::trivial` (parasol_runtime/src/fluent/dynamic_generic_int.rs:125-140, DI below), `CiphertextOps::trivial_encryption`
(parasol_runtime/src/fluent/mod.rs, FM below) and the constants of `Evaluation::new` (parasol_runtime/src/crypto/evaluation.rs:161-197). `GenericInt<N, ..>::trivial` (fluent/generic_int.rs:130-138) calls the dynamic one with its width.
`none` = panic. -/
set_option autoImplicit false
namespace Spf.TrivialInt
open Spf.Tfhe Spf.Fhe Spf.CtExec Spf.Fluent Spf.EncInt
variable {W : Nat}

/-- parasol_runtime/src/crypto/encryption.rs:410-432 `trivial_lwe_l1_zero`, `trivial_lwe_l1_one` with sunscreen_tfhe/src/high_level.rs:530-540 `trivial_lwe`; the dimension is that of the GLWE scheme read as an LWE scheme. -/
def trivialLwe1 (P : EvalParams) (b : Bool) : Option (Lwe (BitVec W)) :=
  match encode (if b then 1#W else 0#W) 1 with
  | none => none
  | some m => lweTrivial (P.glweSize * P.degree) (lweZero (P.glweSize * P.degree)) m

/-- The constants an `Evaluation` carries: parasol_runtime/src/crypto/evaluation.rs:143-148, fields `l1ggsw_zero`, `l1ggsw_one`. -/
structure Consts (W : Nat) where
  zero : List (List (Glwe (BitVec W)))
  one : List (List (Glwe (BitVec W)))

/-- parasol_runtime/src/crypto/evaluation.rs:162-185 `mk_ggsw`: bootstraps a trivial LWE ciphertext into fresh memory. `e` are the floating-point errors. -/
def mkGgsw (P : EvalParams) (K : EvalKey W) (b : Bool) (e : OpErr W) : Option (List (List (Glwe (BitVec W)))) :=
  match trivialLwe0 P b with
  | none => none
  | some c => bootstrapCt P K e c

/-- parasol_runtime/src/crypto/evaluation.rs:161-197 `Evaluation::new`: the two constants, zero first. -/
def evalNew (P : EvalParams) (K : EvalKey W) (e0 e1 : OpErr W) : Option (Consts W) :=
  match mkGgsw P K false e0 with
  | none => none
  | some z => match mkGgsw P K true e1 with
    | none => none
    | some o => some ⟨z, o⟩

/-- `CiphertextOps::trivial_encryption` (FM:177-183, 216-222, 255-261, 300-306, 351-357). -/
def trivialBit (P : EvalParams) (C : Consts W) (t : CtType) (b : Bool) : Option (Ct W) :=
  match t with
  | .lwe0 => (trivialLwe0 P b).map .lwe0
  | .lwe1 => (trivialLwe1 P b).map .lwe1
  | .ggsw1 => some (.ggsw1 (if b then C.one else C.zero))
  | .glwe1 => (trivialGlwe1 P b).map .glwe1
  | .glev1 => (trivialGlev1 P b).map .glev1

/-- DI:129-136: the loop over the bits. -/
def trivialBits (P : EvalParams) (C : Consts W) (t : CtType) : List Bool → Option (List (Ct W))
  | [] => some []
  | b :: bs => match trivialBit P C t b with
    | none => none
    | some ct => match trivialBits P C t bs with
      | none => none
      | some cts => some (ct :: cts)

/-- DI:125-140 `DynamicGenericInt::trivial`. -/
def intTrivial (P : EvalParams) (C : Consts W) (t : CtType) (sg : Sign) (v : BitVec 128) (n : Nat) : Option (List (Ct W)) :=
  match inBounds sg v n with
  | none => none
  | some _ => match toBits sg v n with
    | none => none
    | some bs => trivialBits P C t bs

end Spf.TrivialInt
