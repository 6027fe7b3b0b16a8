import Verif.Spec.CtNoise
import Verif.Spec.Sched
import Verif.Spec.Fluent
import Verif.Props.Sched
/-! What it means that running a circuit in blocking mode succeeds. -/
namespace Spf.Spec
open Spf.Fhe Spf.Tfhe Spf.CtExec Spf.Sched Spf.Props

/-- The circuit `g` can be run (it has a topological order, and the processor accepts it in any), and for every such order, number
of workers, number of flow-control tokens and schedule, when the run on ciphertexts has finished the completion callback has been called
once, without error, and the contents of the cells satisfy `post`. -/
def RunsTo {W : Nat} (P : EvalParams) (K : EvalKey W) (err : FheOp → List (Ct W × FheEdge) → OpErr W) (g : FGraph) (cells : CtType × Nat → Ct W)
    (post : (CtType × Nat → Ct W) → Prop) : Prop :=
  (∃ ord, TopoOrder g ord) ∧ ∀ ord, TopoOrder g ord → ∃ items, spawnAll [(g, ord)] 0 0 = some items ∧
    ∀ threads tokens st, Reached (liftExec (execCt P K err)) threads tokens items cells st → Finished items st → st.fired 0 = [none] ∧ post st.cells

end Spf.Spec
