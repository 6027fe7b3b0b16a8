import Verif.Spec.CircuitSession
import Verif.Spec.FluentRun
/-! Specification for sessions of fluent programs: the results of one, still encrypted, are inputs of the next. -/
set_option autoImplicit false
namespace Spf.Spec
open Spf.Fhe Spf.Fluent Spf.Tfhe Spf.CtExec

/-- What is known of the ciphertexts `cs` is that they hold the value `v`, with the layout of results of type `ty`: bit by bit, least significant first; the coefficients of one polynomial for a packed integer. -/
def KnownAs (κ : Known) (cs : List Nat) : Ty → PVal → Prop
  | .int sg t w, .int sg' w' v => sg' = sg ∧ w' = w ∧
      ∃ bits, bits.length = w ∧ List.Forall₂ (fun c b => ∃ B, κ (t, c) = some (ctOf t b, B)) cs bits ∧ intVal sg bits = v
  | .bit t, .bit b => ∃ c B, cs = [c] ∧ κ (t, c) = some (ctOf t b, B)
  | .packed sg w, .int sg' w' v => sg' = sg ∧ w' = w ∧
      ∃ c poly B, cs = [c] ∧ κ (.glwe1, c) = some (.glwe1 poly, B) ∧ intVal sg ((List.range w).map poly) = v
  | _, _ => False

/-- The program reads only ciphertexts of which something is known, and these hold the integers `env`. -/
structure KnownInputs (κ : Known) (env : Nat → Int) (prog : List Instr) : Prop where
  known : ∀ i ∈ prog, ∀ p ∈ instrCells i, (κ p).isSome
  holds : InputsOk κ.vals env prog

/-- What is known of the ciphertexts `x` stays below what decryption tolerates. -/
def BelowLimit (W : Nat) (P : EvalParams) (κ : Known) (xs : List (CtType × Nat)) : Prop :=
  ∀ x ∈ xs, ∀ u B, κ x = some (u, B) → B < decryptLimit W P u

end Spf.Spec
