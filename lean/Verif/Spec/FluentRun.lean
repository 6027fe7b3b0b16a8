import Verif.Spec.FluentProg
import Verif.Spec.CtNoise
/-! What it means that the outputs of a fluent program, run on ciphertexts, decrypt to the results of the plaintext program. -/
namespace Spf.Spec
open Spf.Fhe Spf.Fluent Spf.Tfhe Spf.CtExec

/-- The kind of the output ciphertexts of a result, and how many there are: one per bit; one for a packed integer. -/
def outKind : Ty → CtType
  | .int _ t _ => t
  | .bit t => t
  | .packed _ _ => .glwe1
def outWidth : Ty → Nat
  | .int _ _ w => w
  | .bit _ => 1
  | .packed _ _ => 1

/-- The output cells, when the results at positions `o.1` are collected into the cells `o.2`. -/
def outCells (tys : List Ty) (outs : List (Nat × List Nat)) : List (CtType × Nat) :=
  outs.flatMap fun o => match tys[o.1]? with
    | none => []
    | some ty => o.2.map (outKind ty, ·)

/-- Every collected result exists and gets as many cells as it has ciphertexts; the cells are different from each other and from
those the program reads. -/
structure OutsOk (prog : List Instr) (tys : List Ty) (outs : List (Nat × List Nat)) : Prop where
  width : ∀ o ∈ outs, ∃ ty, tys[o.1]? = some ty ∧ o.2.length = outWidth ty
  distinct : (outCells tys outs).Nodup
  fresh : ∀ i ∈ prog, ∀ p ∈ instrCells i, p ∉ outCells tys outs

/-- The client decrypts the output cells of a result to the plaintext value: bit by bit, least significant first; the
coefficients of one polynomial for a packed integer. -/
def ReadsAs {W : Nat} (P : EvalParams) (s : List (BitVec W)) (sk : List (List (BitVec W))) (cells : CtType × Nat → Ct W) (cs : List Nat) :
    Ty → PVal → Prop
  | .int sg t w, .int sg' w' v => sg' = sg ∧ w' = w ∧
      ∃ bits, bits.length = w ∧ List.Forall₂ (fun c b => CtDecrypts P s sk (cells (t, c)) (ctOf t b)) cs bits ∧ intVal sg bits = v
  | .bit t, .bit b => ∃ c, cs = [c] ∧ CtDecrypts P s sk (cells (t, c)) (ctOf t b)
  | .packed sg w, .int sg' w' v => sg' = sg ∧ w' = w ∧
      ∃ c poly, cs = [c] ∧ CtDecrypts P s sk (cells (.glwe1, c)) (.glwe1 poly) ∧ intVal sg ((List.range w).map poly) = v
  | _, _ => False

/-- The static noise analysis accepts the circuit, for inputs with noise `nz`: it yields a bound at every node, and at the outputs the
bound is below what decryption tolerates. -/
def NoiseFits (W : Nat) (P : EvalParams) (ν : NoiseLevels) (nz : CtType → Nat → Nat) (g : FGraph) : Prop :=
  ∀ a op, g.weight a = some op → ∃ B, NodeEval (noiseOp W P ν nz) g a B ∧ ∀ t c, op = .output t c → B < decryptLimit W P (ctOf t false)

end Spf.Spec
