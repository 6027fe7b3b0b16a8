import Verif.Model.RunProgram
import Verif.Spec.CtMachine
import Verif.Spec.StoredProg
/-! Specification for a whole call: encrypted arguments and return values. -/
namespace Spf.Spec
open Spf.Cpu Spf.Fhe Spf.CtExec Spf.CtCpu

/-- Two values of the same type with the same plaintexts and, bit by bit, related encrypted bits. -/
def ValRel {α β : Type} (R : α → β → Prop) : (t : Ty) → t.Val α → t.Val β → Prop
  | .prim n, x, y => (show BitVec (8 * n) from x) = y
  | .enc _, x, y => List.Forall₂ R x y
  | .arr _ t, x, y => List.Forall₂ (ValRel R t) x y
  | .unit, _, _ => True

/-- An argument with its bits (what the client means) and its ciphertexts (what it sends). -/
structure EncArg (W : Nat) where
  ty : Ty
  bits : ty.Val Bool
  cts : ty.Val (Ct W)

/-- The ciphertexts encrypt the bits, with noise at most `B`. -/
def EncArg.Holds {W : Nat} (P : EvalParams) (s : List (BitVec W)) (sk : List (List (BitVec W))) (B : Nat) (a : EncArg W) : Prop :=
  ValRel (fun b c => CtHolds P s sk B c (ctOf .glwe1 b)) a.ty a.bits a.cts

/-- The owner of the secret keys decrypts the value to `v`. -/
def DecryptsVal {W : Nat} (P : EvalParams) (s : List (BitVec W)) (sk : List (List (BitVec W))) (t : Ty) (v : t.Val Bool) (c : t.Val (Ct W)) : Prop :=
  ValRel (fun b c => CtDecrypts P s sk c (ctOf .glwe1 b)) t v c

/-- The same memory, with encryptions of noise at most `B` in place of bits. -/
structure MemHolds {W : Nat} (P : EvalParams) (s : List (BitVec W)) (sk : List (List (BitVec W))) (B : Nat) (m : Mem Bool) (c : Mem (Ct W)) : Prop where
  sp : c.sp = m.sp
  byte : ∀ x, match viewOf m x, viewOf c x with
    | none, none => True
    | some (.plain v), some (.plain w) => v = w
    | some (.cipher bs), some (.cipher cs) => List.Forall₂ (fun b c => CtHolds P s sk B c (ctOf .glwe1 b)) bs cs
    | _, _ => False

end Spf.Spec
