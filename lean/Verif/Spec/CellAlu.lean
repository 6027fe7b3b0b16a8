import Verif.Model.CellAlu
import Verif.Spec.CtNoise
import Verif.Spec.FluentMul
import Verif.Spec.Bits
/-! Specification for instructions on ciphertexts: the bits a job computes and the noise of its results. -/
namespace Spf.Spec
open Spf.Cells Spf.Cpu Spf.Fhe Spf.CtExec Spf.Fluent

/-- The contents of a register when cell `c` encrypts the bit `μ c`. -/
def CReg.plainOf (μ : Nat → Bool) : CReg → Reg
  | .plain v w => .plain v w
  | .cells cs => .cipher (cs.map μ)

/-- The bits a job computes, when cell `c` encrypts the bit `μ c`. -/
def Job.bits (μ : Nat → Bool) : Job → List Bool
  | .circuit _ fs ins => fs.map fun f => f fun i => (ins.map μ).getD i false
  | .xor a b => List.zipWith Bool.xor (a.map μ) (b.map μ)
  | .not a => a.map fun c => !μ c
  | .cmux s a b => List.zipWith (fun h l => bif μ s then h else l) (a.map μ) (b.map μ)
  | .mul a b => (List.range a.length).map fun i => (valLE (a.map μ) * valLE (b.map μ)).testBit i

/-- the largest noise of the cells -/
def worst (nz : Nat → Nat) (cs : List Nat) : Nat := cs.foldr (fun c m => max (nz c) m) 0

/-- The noise of the results of a job on cells with noise `nz`; `none` if a bootstrap may fail. Generated circuits and multiplexers
bootstrap their selectors; a generated circuit is at most as deep as it has inputs; exclusive or adds the noise of its operands, negation
keeps it. A product is the output of circuits whose inputs are the operands or outputs of such circuits. -/
def Job.noise (W : Nat) (P : EvalParams) (ν : NoiseLevels) (nz : Nat → Nat) : Job → Option Nat
  | .circuit _ _ ins =>
    if worst nz ins + ksNoise W P ν < bootLimit W P ν then some (ins.length * muxNoise W P ν (bootNoise W P ν)) else none
  | .xor a b => some (worst nz a + worst nz b)
  | .not a => some (worst nz a)
  | .cmux s a b =>
    if nz s + ksNoise W P ν < bootLimit W P ν then some (max (worst nz a) (worst nz b) + muxNoise W P ν (bootNoise W P ν)) else none
  | .mul a b =>
    if worst nz (a ++ b) + ksNoise W P ν < bootLimit W P ν ∧ 4 * a.length * muxNoise W P ν (bootNoise W P ν) + ksNoise W P ν < bootLimit W P ν then
      some (4 * a.length * muxNoise W P ν (bootNoise W P ν))
    else none

/-- a job that instructions spawn: a circuit has outputs, the operands of a per-bit operator have the same length, those
of a product a width that can be multiplied -/
def Job.Ok : Job → Prop
  | .circuit _ fs _ => fs ≠ []
  | .xor a b | .cmux _ a b => a.length = b.length
  | .not _ => True
  | .mul a b => a.length = b.length ∧ MulWidths a.length a.length

/-- The contract of the sources of circuits. -/
structure GensOk (G : Gens) : Prop where
  lib : CanonLibOk G.lib
  circ : CircLibOk G.circ
  depth : CircDepthOk G.circ
  order : ∀ l, (G.order l).Perm l

end Spf.Spec
