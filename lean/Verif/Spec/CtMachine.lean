import Verif.Model.CtMachine
import Verif.Spec.CellAlu
import Verif.Spec.Machine
/-! Specification for the processor on ciphertexts. -/
namespace Spf.Spec
open Spf.Cells Spf.Cpu Spf.Fhe Spf.CtExec Spf.CtCpu

/-- The noise analysis, as a processor whose registers and memory hold the noise of ciphertexts instead of the ciphertexts: trivial encryptions have none, the results of a job
have the noise `Job.noise`, and an instruction fails if some bootstrap of its circuit may. It needs no key and no bits. -/
def noiseDom (W : Nat) (P : EvalParams) (ν : NoiseLevels) : Dom Nat where
  zero := 0
  one := 0
  run := fun job _ nz => (Job.noise W P ν nz job).map (List.replicate job.size)

/-- A register holds encryptions of the contents `v`, with the given noise. -/
def HoldsV {W : Nat} (P : EvalParams) (s : List (BitVec W)) (sk : List (List (BitVec W))) : VReg Nat → Reg → VReg (Ct W) → Prop
  | .plain x w, .plain x' w', .plain x'' w'' => (x = x' ∧ w = w') ∧ x'' = x' ∧ w'' = w'
  | .cts ns, .cipher bs, .cts cs => (ns.length = bs.length ∧ cs.length = bs.length) ∧
      ∀ (i : Nat) n b c, ns[i]? = some n → bs[i]? = some b → cs[i]? = some c → CtHolds P s sk n c (ctOf .glwe1 b)
  | _, _, _ => False

/-- As `HoldsV`, for a byte of memory. -/
def HoldsVByte {W : Nat} (P : EvalParams) (s : List (BitVec W)) (sk : List (List (BitVec W))) : Option (Byte Nat) → Option (Byte Bool) → Option (Byte (Ct W)) → Prop
  | none, none, none => True
  | some (.plain x), some (.plain x'), some (.plain x'') => x = x' ∧ x'' = x'
  | some (.cipher ns), some (.cipher bs), some (.cipher cs) => HoldsV P s sk (.cts ns) (.cipher bs) (.cts cs)
  | _, _, _ => False

/-- A state of the processor on ciphertexts encrypts the state `a`, with the given noise. -/
structure HoldsArch {W : Nat} (P : EvalParams) (s : List (BitVec W)) (sk : List (List (BitVec W))) (n : Seq.Arch (VReg Nat) Nat (Option (Byte Nat)))
    (a : Seq.Arch Reg Nat (Option (Byte Bool))) (c : Seq.Arch (VReg (Ct W)) Nat (Option (Byte (Ct W)))) : Prop where
  reg : ∀ r, HoldsV P s sk (n.reg r) (a.reg r) (c.reg r)
  mem : ∀ x, HoldsVByte P s sk (n.mem x) (a.mem x) (c.mem x)
  pc : n.pc = a.pc ∧ c.pc = a.pc

/-- All ciphertexts of the state `a` have noise `N`. -/
def uniformNoise (N : Nat) (a : Seq.Arch Reg Nat (Option (Byte Bool))) : Seq.Arch (VReg Nat) Nat (Option (Byte Nat)) where
  reg := fun r => match a.reg r with
    | .plain x w => .plain x w
    | .cipher l => .cts (l.map fun _ => N)
  mem := fun x => match a.mem x with
    | none => none
    | some (.plain v) => some (.plain v)
    | some (.cipher l) => some (.cipher (l.map fun _ => N))
  pc := a.pc

/-- The owner of the secret keys decrypts the ciphertexts of a register to the bits `v`. -/
def DecryptsV {W : Nat} (P : EvalParams) (s : List (BitVec W)) (sk : List (List (BitVec W))) : VReg (Ct W) → Reg → Prop
  | .plain x w, .plain x' w' => x = x' ∧ w = w'
  | .cts cs, .cipher bs => List.Forall₂ (fun c b => CtDecrypts P s sk c (ctOf .glwe1 b)) cs bs
  | _, _ => False

/-- As `DecryptsV`, for a byte of memory. -/
def DecryptsVByte {W : Nat} (P : EvalParams) (s : List (BitVec W)) (sk : List (List (BitVec W))) : Option (Byte (Ct W)) → Option (Byte Bool) → Prop
  | none, none => True
  | some (.plain x), some (.plain x') => x = x'
  | some (.cipher cs), some (.cipher bs) => List.Forall₂ (fun c b => CtDecrypts P s sk c (ctOf .glwe1 b)) cs bs
  | _, _ => False

end Spf.Spec
