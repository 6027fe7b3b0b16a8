import Verif.Model.FheGraph
/-! Specification: the value of a node of an FHE circuit. -/
namespace Spf.Spec
open Spf.Fhe

/-- `FEval g n v`: node `n` of the circuit, run after its operands, produces `v`. (An inductive relation: a derivation is
a finite evaluation order.) -/
inductive FEval (deg : Nat) (cells : CtType → Nat → Val) (g : FGraph) : Nat → Val → Prop
  | op {n op v} (f : Nat → Val) : g.weight n = some op → (∀ e ∈ g.inEdges n, FEval deg cells g e.1 (f e.1)) →
      execOp deg cells op ((g.inEdges n).map fun e => (f e.1, e.2.2)) = some v → FEval deg cells g n v

/-- `Reach g a b`: `b` depends on `a` (reflexive). -/
inductive Reach {N E : Type} (g : Graph N E) : Nat → Nat → Prop
  | refl {a} : Reach g a a
  | step {a b c k} : (a, b, k) ∈ g.edges → Reach g b c → Reach g a c

/-- Kind of ciphertext an operator produces. -/
def opType : FheOp → Option CtType
  | .input t _ => some t
  | .sampleExtract _ => some .lwe1
  | .keyswitchL1toL0 => some .lwe0
  | .not | .glweAdd | .cmux | .multiplyGgswGlwe | .mulXN _ | .zeroGlwe1 | .oneGlwe1 => some .glwe1
  | .glevCmux | .zeroGlev1 | .oneGlev1 => some .glev1
  | .circuitBootstrap | .schemeSwitch | .zeroGgsw1 | .oneGgsw1 => some .ggsw1
  | .zeroLwe0 | .oneLwe0 => some .lwe0
  | .output _ _ | .retire | .nop => none

/-- the message of a ciphertext of kind `t` that encrypts the bit `b` -/
def ctOf : CtType → Bool → Val
  | .lwe0, b => .lwe0 b | .lwe1, b => .lwe1 b | .glwe1, b => .glwe1 (constPoly b) | .ggsw1, b => .ggsw1 b | .glev1, b => .glev1 b

end Spf.Spec
