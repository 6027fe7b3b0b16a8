import Verif.Model.FluentMul
import Verif.Spec.Fluent
import Verif.Spec.MuxSem
/-! Specification vocabulary for multiplication on circuits. -/
namespace Spf.Spec
open Spf.Fhe Spf.Fluent Spf.Mul

/-- The library yields a well-formed circuit on `nv` inputs whose outputs are the functions `fs`. -/
def CircOk (lib : CircLib) (nv : Nat) (fs : List BddFn) : Prop :=
  ∃ c fs', lib nv fs = some c ∧ WF c.graph ∧ SelectorsOnly c.graph ∧ Computes c nv fs' ∧ fs'.length = fs.length ∧
    ∀ (i : Nat) f f', fs[i]? = some f → fs'[i]? = some f' → ∀ env, (∀ i, nv ≤ i → env i = false) → f' env = f env

/-- The contract of the circuits multiplication and conjunction are built from: the multipliers, the gradeschool
reductions, the negators and the conjunctions compute their generators' functions (C03, C09, C10 say what these are). -/
structure CircLibOk (lib : CircLib) : Prop where
  mul : ∀ n m outs, multiplierImpl n m = some outs → outs ≠ [] → CircOk lib (n + m) outs
  red : ∀ n m outs, gradeschoolReduceImpl n m = some outs → outs ≠ [] → CircOk lib (2 * (m + n)) outs
  neg : ∀ n outs, Arith.negator n = some outs → outs ≠ [] → CircOk lib n outs
  and : ∀ n outs, Arith.makeAndCircuit n = some outs → outs ≠ [] → CircOk lib (2 * n) outs

/-- Circuits of the library are no deeper than they have inputs (they come from ordered decision diagrams). -/
def CircDepthOk (lib : CircLib) : Prop := ∀ nv fs c, lib nv fs = some c → DepthAtMost c.graph nv

/-- Widths whose product circuit can be built: both at most 16 bits, or both above 16 bits with halves whose products can be
built (the order of the operands does not matter). -/
inductive MulWidths : Nat → Nat → Prop
  | base {n m} : 1 ≤ n → n ≤ 16 → 1 ≤ m → m ≤ 16 → MulWidths n m
  | split {n m} : 16 < n → 16 < m → m ≤ n → 2 * (m + n) < maxVars →
      MulWidths ((n + 1) / 2) ((m + 1) / 2) → MulWidths ((n + 1) / 2) (m / 2) →
      MulWidths (n / 2) ((m + 1) / 2) → MulWidths (n / 2) (m / 2) → MulWidths n m
  | swap {n m} : n < m → MulWidths m n → MulWidths n m

end Spf.Spec
