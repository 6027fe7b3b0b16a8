import Verif.Model.Exec
/-! The gas that `run_program_with_options` returns (`parasol_cpu/src/proc/fhe_processor.rs`, FP below, 655-690 and 705-706).
`Machine.St.gas` adds the charges up as natural numbers; the code keeps them in a `u32` (the type of the result, FP:650, and of
`compute_gas`, FP:221) and adds with `gas += used_gas` (FP:678), which panics on overflow when overflow checks are compiled in
(the default of `cargo build` and `cargo test`) and wraps otherwise (the workspace's release profile leaves them off). -/
namespace Spf.Machine
variable {I V A B : Type} [DecidableEq A]

/-- FP:678: `gas += used_gas` on `u32`; `none` stands for a panic. -/
def addGas (checks : Bool) (gas used : Nat) : Option Nat :=
  if gas + used < 2 ^ 32 then some (gas + used) else if checks then none else some ((gas + used) % 2 ^ 32)

/-- FP:655-690: the counter through a run. `s.gas` grows by the charge of an instruction when its successor is known
(`resolveStep`), which is where the code adds to its counter; other steps leave it alone. -/
def countGas (checks : Bool) (isa : Isa I V A B) (prog : Nat → Except Spf.Cpu.Err I) (init : Nat → V) (limit : Option Nat) :
    Nat → St I V A B → List Label → Option Nat
  | gas, _, [] => some gas
  | gas, s, l :: ls => match step isa prog init limit s l with
    | none => none
    | some s' =>
      if l = .resolve then match addGas checks gas (s'.gas - s.gas) with
        | none => none
        | some g => countGas checks isa prog init limit g s' ls
      else countGas checks isa prog init limit gas s' ls

end Spf.Machine
