import Verif.Spec.CellMachine
/-! Specification: instructions that keep the noise of a program bounded. -/
namespace Spf.Spec
open Spf.Cells Spf.Cpu Spf.Fhe Spf.CtExec

/-- Instructions whose results on ciphertexts have noise that does not depend on the noise of their operands, or no more noise than these: all but exclusive or, `cmux` and
shifts (and multiplication, unless `mul`). -/
def Steady (mul : Bool) (i : Inst) : Prop := i.op ∉ [.xor, .cmux, .rotl, .rotr, .shl, .shr, .shra] ∧ (i.op = .mul → mul = true)

/-- The noise of the deepest circuit such an instruction runs: addition with carry of 128-bit integers has 257 inputs. -/
def steadyNoise (W : Nat) (P : EvalParams) (ν : NoiseLevels) (mul : Bool) : Nat := (if mul then 512 else 257) * muxNoise W P ν (bootNoise W P ν)

end Spf.Spec
