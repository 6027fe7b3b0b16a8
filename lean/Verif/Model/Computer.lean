import Verif.Model.FluentProg
/-! `FheComputer::pack_int` and `unpack_int`: the circuits they build and run. -/
namespace Spf.Fluent
open Spf.Fhe

/-- parasol_cpu/src/proc/mod.rs:318-347 `pack_int`, `pack_int_dyn`: the circuit that packs the integer in the cells `ins` into the
cell `out` (in Rust `collect_output` allocates the cell). `none`: panic. -/
def packInt (deg : Nat) (ins : List Nat) (out : Nat) : Option FGraph :=
  match graphInputs .glwe1 ins Ctx.new.circuit with
  | (g, ns) =>
    match pack deg ns g with
    | none => none
    | some (g, p) =>
      match collectOutputs .glwe1 [p.id] [out] g with
      | none => none
      | some (g, _) => some g

/-- parasol_cpu/src/proc/mod.rs:351-383 `unpack_int`, `unpack_int_dyn`: the circuit that unpacks the `w`-bit integer in the cell
`inp` into one cell per bit (as many as `unpack` yields; here the caller names them). `none`: panic. -/
def unpackInt (w : Nat) (inp : Nat) (outs : List Nat) : Option FGraph :=
  match Ctx.new.circuit.addNode (.input .glwe1 inp) with
  | (g, n) =>
    match unpack ⟨w, n⟩ g with
    | none => none
    | some (g, ns) =>
      match convertAll .lwe1 .glwe1 ns g with
      | none => none
      | some (g, ms) =>
        if ms.length = outs.length then
          match collectOutputs .glwe1 ms outs g with
          | none => none
          | some (g, _) => some g
        else none

end Spf.Fluent
