import Verif.Model.StoredProg
import Verif.Model.Args
import Verif.Spec.Machine
/-! A call of `run_program`: `parasol_cpu/src/proc/fhe_processor.rs` (FP below), `parasol_cpu/src/proc/args.rs`. The call frame is set up by `setUpCall` (`Verif.Model.Args`), the processor runs
(`Verif.Model.StoredProg`), and the return value is read from memory. -/
namespace Spf.CtCpu
open Spf.Cpu
variable {α V : Type}

/-- args.rs:48-54 `to_arg`, collected by args.rs:443-448 `ArgsBuilder::arg`. (The assertion on the length, 51, always holds for well-formed values: `Ty.toBytes_length`.) -/
def toArg (t : Ty) (v : t.Val α) : Arg α := ⟨t.alignment, t.toBytes v⟩

/-- args.rs:464-469 `return_value`, args.rs:62-68 `to_return_value`. -/
def callOf (args : List (Arg α)) (ret : Ty) : CallData α := ⟨args, ret.size, ret.alignment⟩

/-- The registers the program starts with: zero (FP:593-600 `reset`), except for the pointer to the return value in `RP` = X10 and the stack pointer in `SP` = X2
(FP:575-588, assembly.rs:489-494). -/
def callReg (plain : Nat → Nat → V) (sp ret : Nat) (k : Nat) : V :=
  if k = 2 then plain sp 32 else if k = 10 then plain ret 32 else plain 0 32

/-- The state in which the program starts after the call was set up (FP:645-656). -/
def callState (plain : Nat → Nat → V) (m : Mem α) (ret pc : Nat) : Seq.Arch V Nat (Option (Byte α)) :=
  { reg := callReg plain m.sp ret, mem := viewOf m, pc := pc }

/-- FP:624-628: the loop over the bytes of the return value; `n` iterations from index `i`. -/
def loadBytes (m : VView α) (p : Nat) : Nat → Nat → Except Err (List (Byte α))
  | 0, _ => .ok []
  | n + 1, i => match tryOffset p i with
    | .error e => .error e
    | .ok q => match m q with
      | none => .error (.accessViolation q)
      | some b => match loadBytes m p n (i + 1) with
        | .error e => .error e
        | .ok bs => .ok (b :: bs)

/-- FP:611-631 `try_capture_return_value`. -/
def returnValue (t : Ty) (m : VView α) (ret : Nat) : Except Err (t.Val α) :=
  match (if t.size = 0 then Except.ok [] else loadBytes m ret t.size 0) with
  | .error e => .error e
  | .ok bs => t.fromBytes bs

/-- FP:636-704: the caller's memory after a call. The processor works on the same object (FP:649 `memory.clone()` clones a reference): its contents are those after the run; the page table is the one
of the start, no instruction maps a page; the stack pointer stays where the call frame was put (only `try_push_arg_onto_stack` assigns it, parasol_cpu/src/memory/mod.rs:466-486). -/
def _root_.Spf.Cpu.Mem.after (m : Mem α) (v : VView α) : Mem α :=
  { m with pages := fun i => (m.pages i).map fun pg o => (v (4096 * i + o)).getD (pg o) }

end Spf.CtCpu
