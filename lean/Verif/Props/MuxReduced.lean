import Verif.Proof.FromBddReduced
import Verif.Proof.BddCanon
import Verif.Spec.FluentMul
import Verif.Props.Traverse
/-! C11, C12 and C102 on circuits made of reduced ordered decision diagrams. -/
namespace Spf.Props
open Spf.Mux Spf.Spec Spf.Fluent Spf.Trav Graph

/-- **C11 (reduced diagrams).** The circuit made of reduced ordered diagrams has no two equal multiplexers within a diagram, no
multiplexer with equal data operands, a single copy of every constant and input, and tests its inputs in increasing order along
every path. -/
theorem C11_reduced {nv : Nat} {bdds : List (List BddNode)} (hv : ∀ b ∈ bdds, ReducedBdd nv b) (hne : bdds ≠ []) :
    ∃ c, fromBdds bdds = some c ∧ WF c.graph ∧ Computes c nv (bdds.map bddFn) ∧ SelectorsOnly c.graph ∧ (∃ dia, Reduced c.graph dia) ∧
      Ordered c.graph := fromBdds_reduced hv hne

/-- **C12 (reduced circuits).** On a circuit without duplicates inside its diagrams the optimiser does not panic; the result is
well formed, computes the same functions, keeps inputs on select lines only and keeps the order of the inputs. -/
theorem C12_reduced {c : MuxCircuit} {dia : Nat → Nat} {nIn outs} (hw : WF c.graph) (hs : SelectorsOnly c.graph) (hr : Reduced c.graph dia)
    (hc : Computes c nIn outs) :
    ∃ c', optimize c = some c' ∧ WF c'.graph ∧ SelectorsOnly c'.graph ∧ Computes c' nIn outs ∧ (Ordered c.graph → Ordered c'.graph) :=
  optimize_reduced hw hs hr hc

/-- **C12 (diagrams).** Converting any non-empty list of reduced ordered diagrams and optimising the circuit succeeds and yields a
well-formed circuit whose output `i` is the function of diagram `i`. -/
theorem C12_diagrams {nv : Nat} {bdds : List (List BddNode)} (hv : ∀ b ∈ bdds, ReducedBdd nv b) (hne : bdds ≠ []) :
    ∃ c c', fromBdds bdds = some c ∧ optimize c = some c' ∧ WF c'.graph ∧ SelectorsOnly c'.graph ∧ Computes c' nv (bdds.map bddFn) ∧
      Ordered c'.graph := by
  obtain ⟨c, h1, h2, h3, h4, ⟨dia, h5⟩, h6⟩ := fromBdds_reduced hv hne
  obtain ⟨c', i1, i2, i3, i4, i5⟩ := optimize_reduced h2 h4 h5 h3
  exact ⟨c, c', h1, i1, i2, i3, i4, i5 h6⟩

/-- **C12 (generators).** With a library that builds reduced ordered diagrams, the generators that optimise their circuit (and, or,
shifts) never panic in doing so, whatever the functions, and the optimised circuit computes the functions. -/
theorem C12_generators {lib : BddLib} (hlib : CanonLibOk lib) (nv : Nat) {fs : List BddFn} (hne : fs ≠ []) : CircOk (optCircuitOf lib) nv fs := by
  obtain ⟨c, c', h1, h2, h3, h4, h5, -⟩ := C12_diagrams (nv := nv) (bdds := fs.map (lib.nodes nv)) (by
    intro b hb
    obtain ⟨f, -, rfl⟩ := List.mem_map.1 hb
    exact (hlib nv f).1) (by simpa using hne)
  refine ⟨c', _, ?_, h3, h4, h5, by simp, ?_⟩
  · unfold optCircuitOf circuitOf; rw [h1]; exact h2
  · intro i f f' hf hf' env he
    rw [List.getElem?_map, List.getElem?_map, hf] at hf'
    simp only [Option.map_some, Option.some.injEq] at hf'
    rw [← hf']
    exact (hlib nv f).2 env he

/-- **C102 (optimised circuits).** The optimised circuit of any list of reduced ordered diagrams evaluates to the value of each
diagram. -/
theorem C102_optimized {nv : Nat} {bdds : List (List BddNode)} (hv : ∀ b ∈ bdds, ReducedBdd nv b) (hne : bdds ≠ [])
    {inputs : List Bool} (hlen : inputs.length = nv) :
    ∃ c c', fromBdds bdds = some c ∧ optimize c = some c' ∧ testMuxCircuit c' inputs = some (bdds.map fun b => bddFn b fun i => inputs.getD i false) := by
  obtain ⟨c, h1, h2, h3, h4, ⟨dia, h5⟩, h6⟩ := fromBdds_reduced hv hne
  obtain ⟨c', i1, i2, i3, i4, i5⟩ := optimize_reduced h2 h4 h5 h3
  refine ⟨c, c', h1, i1, ?_⟩
  rw [C102_optimized_partial h2 h3 (by simpa using (fromBdds_outs h1).1) i1 i2 hlen]
  simp

/-! ### non-vacuity -/

/-- a library with a unique table exists -/
theorem canonLib_canon : CanonLibOk canonLib := canonLib_ok

/-- the three outputs of the example share subdiagrams: carry, sum and a copy of the sum -/
def exShared : List BddFn := [fun e => e 0 && e 1, fun e => Bool.xor (e 0) (e 1), fun e => Bool.xor (e 0) (e 1)]

theorem exShared_reduced : ∀ b ∈ exShared.map (canonLib.nodes 2), ReducedBdd 2 b := by
  intro b hb
  obtain ⟨f, -, rfl⟩ := List.mem_map.1 hb
  exact (canonLib_ok 2 f).1

example : ∃ c c', fromBdds (exShared.map (canonLib.nodes 2)) = some c ∧ optimize c = some c' ∧ WF c'.graph ∧ SelectorsOnly c'.graph ∧
    Computes c' 2 ((exShared.map (canonLib.nodes 2)).map bddFn) ∧ Ordered c'.graph := C12_diagrams exShared_reduced (by simp [exShared])

/-- the optimiser really merges nodes here: fifteen nodes before, eleven after -/
example : (fromBdds (exShared.map (canonLib.nodes 2))).map (fun c => c.graph.nodes.length) = some 15 ∧
    (optCircuitOf canonLib 2 exShared).map (fun c => c.graph.nodes.length) = some 11 := by decide +kernel

example (a b : Bool) : ∃ c c', fromBdds (exShared.map (canonLib.nodes 2)) = some c ∧ optimize c = some c' ∧
    testMuxCircuit c' [a, b] = some ((exShared.map (canonLib.nodes 2)).map fun d => bddFn d fun i => [a, b].getD i false) :=
  C102_optimized exShared_reduced (by simp [exShared]) rfl

example : CircOk (optCircuitOf canonLib) 2 exShared := C12_generators canonLib_canon 2 (by simp [exShared])

end Spf.Props
