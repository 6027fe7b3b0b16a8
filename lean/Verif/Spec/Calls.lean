import Verif.Spec.RunProgram
/-! Specification for several calls, one after the other, on the same memory. -/
set_option autoImplicit false
namespace Spf.Spec
open Spf.Cpu Spf.CtExec Spf.CtCpu
open Spf.Cpu (Ty)

/-- A value with its type. -/
structure AnyVal (C : Type) where
  ty : Ty
  val : ty.Val C

/-- An argument of a call: chosen by the client, or the result of an earlier call (calls are counted from 0). -/
inductive Source (W : Nat)
  | fresh (a : EncArg W)
  | result (i : Nat)

/-- A call: the address of the program, its arguments, the type of its result. -/
structure ACall (W : Nat) where
  pc : Nat
  args : List (Source W)
  ret : Ty

/-- The value passed for an argument, `h` being the results so far; in the clear. -/
def Source.clear {W : Nat} (h : List (AnyVal Bool)) : Source W → AnyVal Bool
  | .fresh a => ⟨a.ty, a.bits⟩
  | .result i => h.getD i ⟨.unit, ()⟩

/-- The value passed for an argument, `h` being the results so far; the ciphertexts. -/
def Source.cipher {W : Nat} (h : List (AnyVal (Ct W))) : Source W → AnyVal (Ct W)
  | .fresh a => ⟨a.ty, a.cts⟩
  | .result i => h.getD i ⟨.unit, ()⟩

/-- The arguments of a call, as `run_program` gets them. -/
def callArgs {C : Type} (l : List (AnyVal C)) : List (Arg C) := l.map fun x => toArg x.ty x.val

/-- The calls, with bits in place of ciphertexts and one instruction after the other: every call frame can be set up, every program returns, every result can be read; the instructions satisfy `Q`, do not change the code and are steady (C38). From memory `mem`
and results `h`, the results are in the end `h'`. -/
inductive ClearCalls {W : Nat} (Q : Inst → Prop) : Mem Bool → List (AnyVal Bool) → List (ACall W) → List (AnyVal Bool) → Prop
  | nil {mem : Mem Bool} {h : List (AnyVal Bool)} : ClearCalls Q mem h [] h
  | cons {mem m : Mem Bool} {h h' : List (AnyVal Bool)} {c : ACall W} {cs : List (ACall W)} {r N : Nat} {b : Seq.Arch Reg Nat (Option (Byte Bool))} {code : Nat → Prop} {v : c.ret.Val Bool} :
      setUpCall mem (callOf (callArgs (c.args.map (Source.clear h))) c.ret) = (m, .ok r) →
      Seq.StoredReturns parasol CtCpu.fetchInst N (callState Reg.plain m r c.pc) b → Seq.KeepsCode parasol CtCpu.fetchInst (fun pc => List.range' pc 8) code N (callState Reg.plain m r c.pc) →
      Seq.OnlyRuns parasol CtCpu.fetchInst Q N (callState Reg.plain m r c.pc) → Seq.Steady parasol (CtCpu.fetchInst (viewOf m)) Inst.key N (callState Reg.plain m r c.pc) .none →
      returnValue c.ret b.mem r = .ok v → ClearCalls Q (m.after b.mem) (h ++ [⟨c.ret, v⟩]) cs h' → ClearCalls Q mem h (c :: cs) h'

/-- The owner of the secret keys decrypts the value to `v`, of the same type. -/
def DecryptsAny {W : Nat} (P : EvalParams) (s : List (BitVec W)) (sk : List (List (BitVec W))) (v : AnyVal Bool) (c : AnyVal (Ct W)) : Prop :=
  ∃ (t : Ty) (x : t.Val Bool) (y : t.Val (Ct W)), v = ⟨t, x⟩ ∧ c = ⟨t, y⟩ ∧ DecryptsVal P s sk t x y

end Spf.Spec
