import Verif.Model.Fluent
import Verif.Spec.FheSem
import Verif.Spec.Bdd
import Verif.Spec.Bits
import Mathlib.Data.List.Forall2
/-! Specification vocabulary for the fluent integers. -/
namespace Spf.Spec
open Spf.Fhe Spf.Fluent

/-- What the decision-diagram library guarantees: a reduced diagram over `nv` variables that agrees with the function on
every assignment of those variables. -/
def BddLibOk (lib : BddLib) : Prop := ∀ nv f, ValidBdd nv (lib.nodes nv f) ∧
  ∀ env, (∀ i, nv ≤ i → env i = false) → bddFn (lib.nodes nv f) env = f env

/-- The stronger guarantee of a library with a unique table: the diagram is moreover ordered and has no repeated nodes. -/
def CanonLibOk (lib : BddLib) : Prop := ∀ nv f, ReducedBdd nv (lib.nodes nv f) ∧
  ∀ env, (∀ i, nv ≤ i → env i = false) → bddFn (lib.nodes nv f) env = f env

/-- ciphertext kind produced in a multiplexing mode -/
def modeType : MuxMode → CtType | .glwe => .glwe1 | .glev => .glev1

/-- The nodes exist and produce ciphertexts of kind `t`. -/
def AreNodes (g : FGraph) (t : CtType) (nodes : List Nat) : Prop :=
  ∀ n ∈ nodes, ∃ op, g.weight n = some op ∧ opType op = some t

/-- `Holds deg cells g t nodes bits`: when the circuit runs, the `i`-th node produces a ciphertext of kind `t` that encrypts
the `i`-th bit (and there are as many nodes as bits). -/
def Holds (deg : Nat) (cells : CtType → Nat → Val) (g : FGraph) (t : CtType) (nodes : List Nat) (bits : List Bool) : Prop :=
  List.Forall₂ (fun n b => FEval deg cells g n (ctOf t b)) nodes bits

/-- The value of a list of bits read with a signedness. -/
def intVal : Sign → List Bool → Int
  | .unsigned, l => valLE l
  | .signed, l => valSigned l

/-- Every node of `g` is in `g'`, with the same operator, operands and value. -/
def Extends (g g' : FGraph) : Prop := ∀ n op, g.weight n = some op → g'.weight n = some op ∧ g'.inEdges n = g.inEdges n ∧
  ∀ deg cells v, FEval deg cells g' n v ↔ FEval deg cells g n v

/-- the node exists and, whatever the inputs, produces an encryption of the constant `b` -/
def IsConst (g : FGraph) (t : CtType) (b : Bool) (n : Nat) : Prop :=
  AreNodes g t [n] ∧ ∀ deg cells, FEval deg cells g n (ctOf t b)

/-- A circuit context in which every cached constant denotes that constant. -/
structure CtxOk (ctx : Ctx) : Prop where
  live : ∀ e ∈ ctx.circuit.edges, (ctx.circuit.weight e.1).isSome ∧ (ctx.circuit.weight e.2.1).isSome
  oneLen : ctx.oneCache.length = 4
  zeroLen : ctx.zeroCache.length = 4
  ones : ∀ t n, ctx.oneCache[typeIndex t]? = some (some n) → IsConst ctx.circuit t true n
  zeros : ∀ t n, ctx.zeroCache[typeIndex t]? = some (some n) → IsConst ctx.circuit t false n

end Spf.Spec
