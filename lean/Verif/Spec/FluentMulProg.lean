import Verif.Model.FluentMulProg
import Verif.Spec.FluentRun
/-! The plaintext meaning of fluent programs with multiplication, and which of them are accepted. -/
namespace Spf.Spec
open Spf.Fhe Spf.Fluent Spf.Tfhe Spf.CtExec

/-- The plaintext meaning of a program: the collected results, in the order in which they are collected. Positions start again after a multiplication. -/
def meaningM (env : Nat → Int) : List MInstr → List PVal → Option (List PVal)
  | [], _ => some []
  | .call i :: is, vs => match meanI env vs i with
    | none => none
    | some v => meaningM env is (vs ++ [v])
  | .mul i j _ :: is, vs => match vs[i]?, vs[j]? with
    | some (.int s w a), some (.int _ _ b) => meaningM env is [.int s w (wrap s w (a * b))]
    | _, _ => none
  | .collect k _ :: is, vs => match vs[k]? with
    | none => none
    | some v => match meaningM env is vs with
      | none => none
      | some rs => some (v :: rs)

/-- Widths that can be multiplied: both at most 16 bits, or both wider with halves that can be multiplied (recursion depth at most `fuel`). -/
def mulWidthOk : Nat → Nat → Nat → Bool
  | 0, _, _ => false
  | fuel + 1, n, m =>
    if n ≤ 16 ∧ m ≤ 16 then decide (1 ≤ n ∧ 1 ≤ m)
    else decide (16 < n ∧ 16 < m ∧ 2 * (m + n) < maxVars) && mulWidthOk fuel ((n + 1) / 2) ((m + 1) / 2) && mulWidthOk fuel ((n + 1) / 2) (m / 2) &&
      mulWidthOk fuel (n / 2) ((m + 1) / 2) && mulWidthOk fuel (n / 2) (m / 2)

/-- Operand types of the multiplication: GGSW bits of widths that can be multiplied; unsigned integers of more than 16 bits not to Glev (see `C10_glev_violated`). -/
def mulTy (tys : List Ty) (i j : Nat) (mode : MuxMode) : Option Ty :=
  match tys[i]?, tys[j]? with
  | some (.int s .ggsw1 w), some (.int s' .ggsw1 w') =>
    if s = s' ∧ mulWidthOk 16 w w' = true ∧ (s = .signed ∨ mode = .glwe ∨ w ≤ 16 ∧ w' ≤ 16) then some (.int s (modeType mode) w) else none
  | _, _ => none

/-- The constants the context has cached: none so far; some, and they are nodes of the circuit; some, but the circuit has been renumbered since (the caches then
hold dangling handles: `C72_violated`). -/
inductive Caches where
  | unused
  | valid
  | stale
deriving DecidableEq

/-- Does the call ask the context for a constant? -/
def wantsConst (tys : List Ty) : Instr → Bool
  | .constBit _ _ => true
  | .resize i _ => match tys[i]? with
    | some (.int .signed _ _) => false
    | _ => true
  | _ => false

/-- The accepted programs: accepted calls, no constants after a multiplication if there were constants before one, and as many cells for every collected
result as it has ciphertexts. Yields the type and the cells of every collected result. -/
def checkM (deg : Nat) : List MInstr → Caches → List Ty → Option (List (Ty × List Nat))
  | [], _, _ => some []
  | .call i :: is, c, tys => match checkI deg tys i with
    | none => none
    | some ty =>
      if wantsConst tys i = true then if c = .stale then none else checkM deg is .valid (tys ++ [ty])
      else checkM deg is c (tys ++ [ty])
  | .mul i j mode :: is, c, tys => match mulTy tys i j mode with
    | none => none
    | some ty => checkM deg is (if c = .unused then .unused else .stale) [ty]
  | .collect k cs :: is, c, tys => match tys[k]? with
    | none => none
    | some ty =>
      if cs.length = outWidth ty then match checkM deg is c tys with
        | none => none
        | some os => some ((ty, cs) :: os)
      else none

/-- The library calls of a program. -/
def callsOf : List MInstr → List Instr
  | [] => []
  | .call i :: is => i :: callsOf is
  | _ :: is => callsOf is

/-- The output cells of the collected results. -/
def collectedCells (os : List (Ty × List Nat)) : List (CtType × Nat) := os.flatMap fun o => o.2.map (outKind o.1, ·)

/-- The output cells are different from each other and from those the program reads. -/
structure CollectsOk (prog : List MInstr) (os : List (Ty × List Nat)) : Prop where
  distinct : (collectedCells os).Nodup
  fresh : ∀ i ∈ callsOf prog, ∀ p ∈ instrCells i, p ∉ collectedCells os

/-- When the circuit runs, some output node writes the value `u` to the cell. -/
def Writes (deg : Nat) (cells : CtType → Nat → Val) (g : FGraph) (t : CtType) (c : Nat) (u : Val) : Prop :=
  ∃ n, g.weight n = some (.output t c) ∧ FEval deg cells g n u

/-- When the circuit runs, its output nodes write the plaintext value into the cells of a result: bit by bit, least significant first; the coefficients of one
polynomial for a packed integer. -/
def WritesAs (deg : Nat) (cells : CtType → Nat → Val) (g : FGraph) (cs : List Nat) : Ty → PVal → Prop
  | .int sg t w, .int sg' w' v => sg' = sg ∧ w' = w ∧
      ∃ bits, bits.length = w ∧ List.Forall₂ (fun c b => Writes deg cells g t c (ctOf t b)) cs bits ∧ intVal sg bits = v
  | .bit t, .bit b => ∃ c, cs = [c] ∧ Writes deg cells g t c (ctOf t b)
  | .packed sg w, .int sg' w' v => sg' = sg ∧ w' = w ∧
      ∃ c poly, cs = [c] ∧ Writes deg cells g .glwe1 c (.glwe1 poly) ∧ intVal sg ((List.range w).map poly) = v
  | _, _ => False

end Spf.Spec
