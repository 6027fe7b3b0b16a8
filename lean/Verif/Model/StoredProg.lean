import Verif.Model.CtMachine
/-! The processor fetching its program from the memory it computes on (`parasol_cpu/src/proc/fhe_processor.rs`, FP below), and a whole call of `run_program`. `Verif.Model.Machine` takes the
program as a fixed function; here every fetch reads the memory as it is at that moment. -/
namespace Spf.Machine
open Spf.Cpu (Err)
variable {I V A B : Type} [DecidableEq A]

/-- A step of the processor; `fetch m pc` is the instruction at `pc` in the memory `m` (FP:667-668). -/
def stepM (isa : Isa I V A B) (fetch : (A → B) → Nat → Except Err I) (init : Nat → V) (limit : Option Nat) (s : St I V A B) (l : Label) : Option (St I V A B) :=
  step isa (fetch s.mem) init limit s l

/-- A schedule (FP:659-690, each iteration fetches from memory). -/
def runM (isa : Isa I V A B) (fetch : (A → B) → Nat → Except Err I) (init : Nat → V) (limit : Option Nat) : St I V A B → List Label → Option (St I V A B)
  | s, [] => some s
  | s, l :: ls => match stepM isa fetch init limit s l with
    | none => none
    | some s' => runM isa fetch init limit s' ls

end Spf.Machine

namespace Spf.CtCpu
open Spf.Cpu
variable {α : Type}

/-- memory/mod.rs:523-536 `try_load`, as a function of the address. -/
def viewOf (m : Mem α) : VView α := fun a =>
  match m.load a with
  | .ok b => some b
  | .error _ => none

/-- memory/mod.rs:554-574 `try_load_plaintext_byte` in the loop of `try_load_n_bytes`, and `u64::from_le_bytes`: `k` bytes at `pc`, from index `i`. -/
def fetchWord (m : VView α) (pc : Nat) : Nat → Nat → Except Err Nat
  | 0, _ => .ok 0
  | k + 1, i => match tryOffset pc i with
    | .error e => .error e
    | .ok a => match m a with
      | none => .error (.accessViolation a)
      | some (.cipher _) => .error (.unexpectedEncryptedByte a)
      | some (.plain b) => match fetchWord m pc k (i + 1) with
        | .error e => .error e
        | .ok w => .ok (b.toNat + 256 * w)

/-- memory/mod.rs:587-594 `try_load_plaintext_dword` and FP:667-668: the instruction at an address. -/
def fetchInst (m : VView α) (pc : Nat) : Except Err Inst :=
  if pc % 8 ≠ 0 then .error (.unaligned pc)
  else match fetchWord m pc 8 0 with
    | .error e => .error e
    | .ok w => decode w

end Spf.CtCpu
