import Verif.Spec.Calls
import Verif.Spec.CtMachine
/-! Specification for several calls on the same memory, with an analysis of the noise of each. -/
set_option autoImplicit false
namespace Spf.Spec
open Spf.Cpu Spf.CtExec Spf.CtCpu
open Spf.Cpu (Ty)

/-- As `ClearCalls`, for any instructions. The noise analysis of each program, started with noise `B` everywhere, returns (so no bootstrap may fail) and leaves noise at most `B'` in memory; the next call starts from `B'`; `E` is the bound after the last call. -/
inductive NoisyCalls {W : Nat} (P : EvalParams) (ν : NoiseLevels) : Nat → Mem Bool → List (AnyVal Bool) → List (ACall W) → List (AnyVal Bool) → Nat → Prop
  | nil {B : Nat} {mem : Mem Bool} {h : List (AnyVal Bool)} : NoisyCalls P ν B mem h [] h B
  | cons {B B' E : Nat} {mem m : Mem Bool} {h h' : List (AnyVal Bool)} {c : ACall W} {cs : List (ACall W)} {r N : Nat} {b : Seq.Arch Reg Nat (Option (Byte Bool))} {bN : Seq.Arch (VReg Nat) Nat (Option (Byte Nat))} {code : Nat → Prop}
      {v : c.ret.Val Bool} : B ≤ B' → setUpCall mem (callOf (callArgs (c.args.map (Source.clear h))) c.ret) = (m, .ok r) →
      Seq.StoredReturns parasol CtCpu.fetchInst N (callState Reg.plain m r c.pc) b → Seq.KeepsCode parasol CtCpu.fetchInst (fun pc => List.range' pc 8) code N (callState Reg.plain m r c.pc) →
      Seq.Steady parasol (CtCpu.fetchInst (viewOf m)) Inst.key N (callState Reg.plain m r c.pc) .none →
      Seq.Returns (isa (noiseDom W P ν)) (CtCpu.fetchInst (viewOf m)) N (uniformNoise B (callState Reg.plain m r c.pc)) bN → (∀ x l, bN.mem x = some (.cipher l) → ∀ e ∈ l, e ≤ B') →
      returnValue c.ret b.mem r = .ok v → NoisyCalls P ν B' (m.after b.mem) (h ++ [⟨c.ret, v⟩]) cs h' E → NoisyCalls P ν B mem h (c :: cs) h' E

end Spf.Spec
