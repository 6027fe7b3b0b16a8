import Verif.Model.Exec
/-!
Model of debug handlers: `parasol_cpu/src/proc/ops/dbg.rs` and the calls it makes while the out-of-order processor of
`Verif.Model.Machine` runs. A handler is a function of the host; what is modelled is when it is called and with what.
-/
namespace Spf.Machine
open Spf.Cpu (Err)
variable {I V A B H : Type} [DecidableEq A]

/-- parasol_cpu/src/proc/fhe_processor.rs:337-340: the scoreboard entry of the instruction being dispatched records the
program counter. -/
def notePc (s : St I V A B) (pcs : Nat → Nat) : Label → Nat → Nat
  | .fetch => fun j => if j = s.n then s.pc else pcs j
  | _ => pcs

/-- parasol_cpu/src/proc/fhe_processor.rs:727-756, 906-908: what executing an instruction shows to the host: nothing after a
fault, else what `f` says given the instruction, its number, its recorded program counter and the contents of its
sources. -/
def observe (f : I → Nat → Nat → List V → Option H) (pcs : Nat → Nat) (init : Nat → V) (s : St I V A B) : Label → List H
  | .exec i _ =>
    match s.fault with
    | some _ => []
    | none => (f (s.ent i).inst i (pcs i) (s.srcVals init i)).toList
  | _ => []

/-- A schedule (parasol_cpu/src/proc/fhe_processor.rs:657-706) with what the host sees, oldest first. -/
def runObs (f : I → Nat → Nat → List V → Option H) (isa : Isa I V A B) (prog : Nat → Except Err I) (init : Nat → V)
    (limit : Option Nat) : St I V A B → (Nat → Nat) → List H → List Label → Option (St I V A B × List H)
  | s, _, hs, [] => some (s, hs)
  | s, pcs, hs, l :: ls => match step isa prog init limit s l with
    | none => none
    | some s' => runObs f isa prog init limit s' (notePc s pcs l) (hs ++ observe f pcs init s l) ls

end Spf.Machine

namespace Spf.Cpu

/-- A call of a debug handler (parasol_cpu/src/proc/ops/dbg.rs:22): which one, with which instruction number, program
counter and register contents. -/
structure Hit where
  handler : Nat
  id : Nat
  pc : Nat
  val : Reg
  deriving Repr, DecidableEq

/-- parasol_cpu/src/proc/ops/dbg.rs:8-26 with `handlers` handlers installed (parasol_cpu/src/proc/fhe_processor.rs:86-93,
647). -/
def Inst.hit (handlers : Nat) (inst : Inst) (id pc : Nat) (vals : List Reg) : Option Hit :=
  match inst.op with
  | .dbg =>
    let handlerId := inst.nat 1
    if handlers > handlerId then some ⟨handlerId, id, pc, vals.getD 0 .default⟩ else none
  | _ => none

end Spf.Cpu
