import Verif.Model.FluentProg
/-! Fluent programs with multiplication, and with outputs collected at any point of the program. -/
namespace Spf.Fluent
open Spf.Fhe

/-- One step of a program: a library call (`Instr`), a multiplication, or collecting the result at position `k` into the given cells. -/
inductive MInstr where
  | call (i : Instr)
  | mul (i j : Nat) (mode : MuxMode)
  | collect (k : Nat) (cells : List Nat)

/-- Execute a program. Calls are those of `Model.FluentProg`; `mul` is parasol_runtime/src/fluent/dynamic_generic_int_graph_nodes.rs:476-521; collecting is
parasol_runtime/src/fluent/dynamic_generic_int_graph_nodes.rs:88-104, bit.rs:134-142 and packed_dynamic_generic_int_graph_node.rs:52-69 (the cells are
named by the caller, as in `collectAll`). A multiplication renumbers the circuit, so the handles obtained before it are dropped: positions start again, with the
product at 0. `orders k` is the iteration order of the hash map in the `prune` of the multiplication that has `k` steps after it. -/
def execM (lib : BddLib) (deg : Nat) (orders : Nat → List Nat → List Nat) : List MInstr → Ctx → List Handle → Option (Ctx × List Handle)
  | [], ctx, hs => some (ctx, hs)
  | .call i :: is, ctx, hs =>
    match execI lib deg ctx hs i with
    | none => none
    | some (ctx, h) => execM lib deg orders is ctx (hs ++ [h])
  | .mul i j mode :: is, ctx, hs =>
    match withInts hs i j fun s a b => liftCtx s (outType mode) (mul (circuitOf lib) s mode (orders is.length) a b ctx) with
    | none => none
    | some (ctx, h) => execM lib deg orders is ctx [h]
  | .collect k cs :: is, ctx, hs =>
    match collectAll hs [(k, cs)] ctx.circuit with
    | none => none
    | some g => execM lib deg orders is { ctx with circuit := g } hs

end Spf.Fluent
