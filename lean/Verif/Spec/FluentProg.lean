import Verif.Model.FluentProg
import Verif.Spec.Fluent
import Verif.Model.Bdd
/-! What a fluent program means on plaintext integers, and which programs are accepted. -/
namespace Spf.Spec
open Spf.Fhe Spf.Fluent

/-- A plaintext value: an integer of a declared signedness and width, or a Boolean. -/
inductive PVal where
  | int (s : Sign) (w : Nat) (v : Int)
  | bit (b : Bool)
deriving DecidableEq

/-- Wrap an integer to `w` bits: the representative modulo `2^w` in `[0, 2^w)` or in `[-2^(w-1), 2^(w-1))`. -/
def wrap : Sign → Nat → Int → Int
  | .unsigned, w, v => v % 2 ^ w
  | .signed, w, v => Int.bmod v (2 ^ w)

/-- bitwise conjunction of two's complement representations of `w` bits -/
def bitAnd (s : Sign) (w : Nat) (a b : Int) : Int := wrap s w (BitVec.ofInt w a &&& BitVec.ofInt w b).toNat

/-- comparison on integers -/
def cmpInt (gt eq : Bool) (a b : Int) : Bool :=
  match gt, eq with
  | true, true => decide (a ≥ b)
  | true, false => decide (a > b)
  | false, true => decide (a ≤ b)
  | false, false => decide (a < b)

/-- The plaintext meaning of one call: machine integers with wrap-around arithmetic. -/
def meanI (env : Nat → Int) (vs : List PVal) : Instr → Option PVal
  | .input s _ x cells => some (.int s cells.length (env x))
  | .inputBit _ x _ => some (.bit (decide (env x = 1)))
  | .inputPacked s w x _ => some (.int s w (env x))
  | .constBit _ b => some (.bit b)
  | .convert i _ => vs[i]?
  | .add i j _ => match vs[i]?, vs[j]? with
    | some (.int s w a), some (.int _ _ b) => some (.int s w (wrap s w (a + b)))
    | _, _ => none
  | .sub i j _ => match vs[i]?, vs[j]? with
    | some (.int s w a), some (.int _ _ b) => some (.int s w (wrap s w (a - b)))
    | _, _ => none
  | .and i j _ => match vs[i]?, vs[j]? with
    | some (.int s w a), some (.int _ _ b) => some (.int s w (bitAnd s w a b))
    | _, _ => none
  | .cmp gt e i j _ => match vs[i]?, vs[j]? with
    | some (.int _ _ a), some (.int _ _ b) => some (.bit (cmpInt gt e a b))
    | _, _ => none
  | .eq i j _ => match vs[i]?, vs[j]? with
    | some (.int _ _ a), some (.int _ _ b) => some (.bit (decide (a = b)))
    | _, _ => none
  | .neq i j _ => match vs[i]?, vs[j]? with
    | some (.int _ _ a), some (.int _ _ b) => some (.bit (decide (a ≠ b)))
    | _, _ => none
  | .select c i j => match vs[c]?, vs[i]?, vs[j]? with
    | some (.bit c), some (.int s w a), some (.int _ _ b) => some (.int s w (bif c then a else b))
    | _, _, _ => none
  | .resize i w => match vs[i]? with
    | some (.int s _ a) => some (.int s w (wrap s w a))
    | _ => none
  | .pack i => vs[i]?
  | .unpack i => vs[i]?

/-- The plaintext meaning of a program: all its results, in order. -/
def meaning (env : Nat → Int) : List Instr → List PVal → Option (List PVal)
  | [], vs => some vs
  | i :: is, vs => match meanI env vs i with
    | none => none
    | some v => meaning env is (vs ++ [v])

/-- Static type of a result. -/
inductive Ty where
  | int (s : Sign) (t : CtType) (w : Nat)
  | bit (t : CtType)
  | packed (s : Sign) (w : Nat)
deriving DecidableEq

/-- widths for which the generated circuits exist -/
def widthOk (w : Nat) : Bool := decide (0 < w) && decide (2 * w + 1 < maxVars)

/-- Operand types of the arithmetic: GGSW bits, the second operand at least as wide. -/
def arithTy (tys : List Ty) (i j : Nat) (mode : MuxMode) : Option Ty :=
  match tys[i]?, tys[j]? with
  | some (.int s .ggsw1 w), some (.int s' .ggsw1 w') =>
    if s = s' ∧ w ≤ w' ∧ widthOk w = true then some (.int s (modeType mode) w) else none
  | _, _ => none

/-- Operand types of the bitwise conjunction: GGSW bits of the same width. -/
def andTy (tys : List Ty) (i j : Nat) (mode : MuxMode) : Option Ty :=
  match tys[i]?, tys[j]? with
  | some (.int s .ggsw1 w), some (.int s' .ggsw1 w') =>
    if s = s' ∧ w = w' ∧ widthOk w = true then some (.int s (modeType mode) w) else none
  | _, _ => none

/-- Operand types of the comparisons: GGSW bits; signed integers must have equal widths (see `C23_signed_violated`). -/
def cmpTy (tys : List Ty) (i j : Nat) (mode : MuxMode) : Option Ty :=
  match tys[i]?, tys[j]? with
  | some (.int s .ggsw1 w), some (.int s' .ggsw1 w') =>
    if s = s' ∧ (s = .signed → w = w') ∧ widthOk (max w w') = true then some (.bit (modeType mode)) else none
  | _, _ => none

/-- The accepted calls: Rust's typing, non-empty widths, constants of the kinds that exist (see `C71_violated`), signed
integers resized to no fewer bits (see `C22_signed_violated`). -/
def checkI (deg : Nat) (tys : List Ty) : Instr → Option Ty
  | .input s t _ cells => some (.int s t cells.length)
  | .inputBit t _ _ => some (.bit t)
  | .inputPacked s w _ _ => some (.packed s w)
  | .constBit t _ => if t = .lwe0 ∨ t = .glwe1 ∨ t = .ggsw1 then some (.bit t) else none
  | .convert i t => match tys[i]? with
    | some (.int s _ w) => some (.int s t w)
    | some (.bit _) => some (.bit t)
    | _ => none
  | .add i j mode => arithTy tys i j mode
  | .sub i j mode => arithTy tys i j mode
  | .and i j mode => andTy tys i j mode
  | .cmp _ _ i j mode => cmpTy tys i j mode
  | .eq i j mode => cmpTy tys i j mode
  | .neq i j mode => cmpTy tys i j mode
  | .select c i j => match tys[c]?, tys[i]?, tys[j]? with
    | some (.bit .ggsw1), some (.int s .glwe1 w), some (.int s' .glwe1 w') =>
      if s = s' ∧ w = w' then some (.int s .glwe1 w) else none
    | _, _, _ => none
  | .resize i w' => match tys[i]? with
    | some (.int .unsigned t w) =>
      if (t = .lwe0 ∨ t = .glwe1 ∨ t = .ggsw1) ∧ 1 ≤ w ∧ 1 ≤ w' then some (.int .unsigned t w') else none
    | some (.int .signed t w) => if 1 ≤ w ∧ w ≤ w' then some (.int .signed t w') else none
    | _ => none
  | .pack i => match tys[i]? with
    | some (.int s .glwe1 w) => if 1 ≤ w ∧ w ≤ deg then some (.packed s w) else none
    | _ => none
  | .unpack i => match tys[i]? with
    | some (.packed s w) => if w ≤ deg then some (.int s .lwe1 w) else none
    | _ => none

/-- The accepted programs. -/
def check (deg : Nat) : List Instr → List Ty → Option (List Ty)
  | [], tys => some tys
  | i :: is, tys => match checkI deg tys i with
    | none => none
    | some t => check deg is (tys ++ [t])

/-- The ciphertext cells a call reads. -/
def instrCells : Instr → List (CtType × Nat)
  | .input _ t _ cs => cs.map (t, ·)
  | .inputBit t _ c => [(t, c)]
  | .inputPacked _ _ _ c => [(.glwe1, c)]
  | _ => []

/-- The ciphertext cells of each input call encrypt the named program input. -/
def InputsOk (cells : CtType → Nat → Val) (env : Nat → Int) (prog : List Instr) : Prop := ∀ i ∈ prog, match i with
  | .input s t x cs => ∃ bits, List.Forall₂ (fun c b => cells t c = ctOf t b) cs bits ∧ intVal s bits = env x
  | .inputBit t x c => cells t c = ctOf t (decide (env x = 1))
  | .inputPacked s w x c => ∃ poly, cells .glwe1 c = .glwe1 poly ∧ intVal s ((List.range w).map poly) = env x
  | _ => True

/-- When the circuit runs, the ciphertexts behind the handle have the declared kind and width and decrypt to the plaintext
value. -/
def Decrypts (deg : Nat) (cells : CtType → Nat → Val) (g : FGraph) : Ty → Handle → PVal → Prop
  | .int s t w, .int s' t' ns, .int s'' w' v =>
    s' = s ∧ t' = t ∧ s'' = s ∧ w' = w ∧ ∃ bits, Holds deg cells g t ns bits ∧ bits.length = w ∧ intVal s bits = v
  | .bit t, .bit t' n, .bit b => t' = t ∧ FEval deg cells g n (ctOf t b)
  | .packed s w, .packed s' p, .int s'' w' v =>
    s' = s ∧ s'' = s ∧ p.bitLen = w ∧ w' = w ∧ ∃ poly, FEval deg cells g p.id (.glwe1 poly) ∧ intVal s ((List.range w).map poly) = v
  | _, _, _ => False

end Spf.Spec
