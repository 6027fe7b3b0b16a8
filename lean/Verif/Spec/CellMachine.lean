import Verif.Model.CellMachine
import Verif.Spec.CellAlu
import Verif.Spec.Computer
import Verif.Spec.Machine
/-! Specification for programs on ciphertexts. -/
namespace Spf.Spec
open Spf.Cells Spf.Cpu Spf.Fhe Spf.CtExec

/-- an encrypted byte, when cell `c` encrypts the bit `μ c` -/
def byteOf (μ : Nat → Bool) : Byte Nat → Byte Bool
  | .plain v => .plain v
  | .cipher cs => .cipher (cs.map μ)

/-- What the owner of the secret key sees of a state, when cell `c` encrypts the bit `μ c`. -/
def CState.archOf (μ : Nat → Bool) (s : CState) : Seq.Arch Reg Nat (Option (Byte Bool)) :=
  { reg := fun r => CReg.plainOf μ (s.reg r), mem := fun a => (s.mem a).map (byteOf μ), pc := s.pc }

/-- The cells that the registers and the memory refer to. -/
def CState.Uses (s : CState) (c : Nat) : Prop :=
  (∃ r cs, s.reg r = .cells cs ∧ c ∈ cs) ∨ ∃ a cs, s.mem a = some (.cipher cs) ∧ c ∈ cs

/-- The final state and the noise of every cell after `k` instructions, from the noise before; `none` if the program stops earlier or some bootstrap may fail.
This analysis needs no key and no ciphertext: it looks at plaintexts and at which cells are read and written. -/
def noiseRun (W : Nat) (P : EvalParams) (ν : NoiseLevels) (prog : Nat → Except Err Inst) : Nat → CState → (Nat → Nat) → Option (CState × (Nat → Nat))
  | 0, _, _ => none
  | k + 1, s, nz =>
    match step prog s with
    | .error _ => none
    | .ok (none, s', halted) => if halted then (if k = 0 then some (s', nz) else none) else noiseRun W P ν prog k s' nz
    | .ok (some (job, outs), s', halted) =>
      match Job.noise W P ν nz job with
      | none => none
      | some B =>
        let nz' := fun c => if c ∈ outs then B else nz c
        if halted then (if k = 0 then some (s', nz') else none) else noiseRun W P ν prog k s' nz'

/-- Running the program on ciphertexts, started in state `s` with the contents `cells`: it returns after `k` instructions; all its circuits are
built and every run of every circuit succeeds, whatever the number of workers and the schedule; the final state and contents satisfy `post`. -/
def RunsProg {W : Nat} (G : Gens) (P : EvalParams) (K : EvalKey W) (err : FheOp → List (Ct W × FheEdge) → OpErr W) (prog : Nat → Except Err Inst) :
    Nat → CState → (CtType × Nat → Ct W) → (CState → (CtType × Nat → Ct W) → Prop) → Prop
  | 0, _, _, _ => False
  | k + 1, s, cells, post =>
    match step prog s with
    | .error _ => False
    | .ok (job, s', halted) =>
      let rest := fun cells' => if halted then k = 0 ∧ post s' cells' else RunsProg G P K err prog k s' cells' post
      match job with
      | none => rest cells
      | some (job, outs) => ∃ g, job.build G outs = some g ∧ RunsTo P K err g cells rest

/-- A register of the ciphertext machine holds the contents `v`: the same plaintext, or one ciphertext for every bit, with the noise `nz`. -/
def HoldsReg {W : Nat} (P : EvalParams) (s : List (BitVec W)) (sk : List (List (BitVec W))) (nz : Nat → Nat) (cells : CtType × Nat → Ct W) : CReg → Reg → Prop
  | .plain v w, .plain v' w' => v = v' ∧ w = w'
  | .cells cs, .cipher bs => List.Forall₂ (fun c b => CtHolds P s sk (nz c) (cells (.glwe1, c)) (ctOf .glwe1 b)) cs bs
  | _, _ => False

/-- As `HoldsReg`, for a byte of memory. -/
def HoldsByte {W : Nat} (P : EvalParams) (s : List (BitVec W)) (sk : List (List (BitVec W))) (nz : Nat → Nat) (cells : CtType × Nat → Ct W) :
    Option (Byte Nat) → Option (Byte Bool) → Prop
  | none, none => True
  | some (.plain v), some (.plain v') => v = v'
  | some (.cipher cs), some (.cipher bs) => List.Forall₂ (fun c b => CtHolds P s sk (nz c) (cells (.glwe1, c)) (ctOf .glwe1 b)) cs bs
  | _, _ => False

/-- The owner of the secret keys decrypts the ciphertexts of a register to the bits `v`. -/
def DecryptsReg {W : Nat} (P : EvalParams) (s : List (BitVec W)) (sk : List (List (BitVec W))) (cells : CtType × Nat → Ct W) : CReg → Reg → Prop
  | .plain v w, .plain v' w' => v = v' ∧ w = w'
  | .cells cs, .cipher bs => List.Forall₂ (fun c b => CtDecrypts P s sk (cells (.glwe1, c)) (ctOf .glwe1 b)) cs bs
  | _, _ => False

/-- As `DecryptsReg`, for a byte of memory. -/
def DecryptsByte {W : Nat} (P : EvalParams) (s : List (BitVec W)) (sk : List (List (BitVec W))) (cells : CtType × Nat → Ct W) :
    Option (Byte Nat) → Option (Byte Bool) → Prop
  | none, none => True
  | some (.plain v), some (.plain v') => v = v'
  | some (.cipher cs), some (.cipher bs) => List.Forall₂ (fun c b => CtDecrypts P s sk (cells (.glwe1, c)) (ctOf .glwe1 b)) cs bs
  | _, _ => False

end Spf.Spec
