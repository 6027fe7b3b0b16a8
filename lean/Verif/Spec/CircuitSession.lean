import Verif.Spec.CtNoise
import Verif.Model.TrivialInt
import Verif.Props.SchedGraph
import Verif.Spec.FheSem
/-! Specification for sessions of circuits: any number of calls that run circuits on the same ciphertexts, with other uses of the ciphertexts between them. -/
set_option autoImplicit false
namespace Spf.Spec
open Spf.Fhe Spf.Tfhe Spf.CtExec Spf.Sched Spf.TrivialInt

/-- One step of a session. Ciphertexts are named by their type and a number. -/
inductive CStep
  /-- run circuits together (one `spawn_graph` for each of them, then wait for all), each with its topological order -/
  | run (gs : List (FGraph × List Nat))
  /-- the client stores a fresh encryption of a message, with noise at most `E` -/
  | put (x : CtType × Nat) (m : Val) (E : Nat)
  /-- a trivial encryption of a bit is stored -/
  | trivial (t : CtType) (c : Nat) (b : Bool)
  /-- the second ciphertext is replaced by a copy of the first -/
  | copy (x y : CtType × Nat)

/-- What is known of the ciphertexts, in the clear: the message, and a bound on the noise. -/
abbrev Known := CtType × Nat → Option (Val × Nat)

/-- the messages -/
def Known.vals (κ : Known) : CtType → Nat → Val := fun t c => match κ (t, c) with | some x => x.1 | none => .lwe0 false

/-- the bounds -/
def Known.noise (κ : Known) : CtType → Nat → Nat := fun t c => match κ (t, c) with | some x => x.2 | none => 0

/-- the ciphertexts hold what is known of them -/
def Knows {W : Nat} (P : EvalParams) (s : List (BitVec W)) (sk : List (List (BitVec W))) (κ : Known) (cells : CtType × Nat → Ct W) : Prop :=
  ∀ x u B, κ x = some (u, B) → CtHolds P s sk B (cells x) u

/-- What a step does to what is known, from the circuits in the clear (`FEval`) and the static noise analysis (`noiseOp`). Circuits may read only ciphertexts of which something is known, must
evaluate on the messages and pass the noise analysis. What they write is known from the values and the analysis of their output nodes; all the rest stays as it was. (It is allowed to forget, and to take larger bounds.) -/
inductive StepKnown (W : Nat) (P : EvalParams) (ν : NoiseLevels) : CStep → Known → Known → Prop
  | run {gs : List (FGraph × List Nat)} {κ κ' : Known} (topo : ∀ p ∈ gs, TopoOrder p.1 p.2) (apart : Apart gs)
      (reads : ∀ p ∈ gs, ∀ a t c, p.1.weight a = some (.input t c) → (κ (t, c)).isSome)
      (evals : ∀ p ∈ gs, Evaluates P.degree (fun x => κ.vals x.1 x.2) p.1)
      (analysis : ∀ p ∈ gs, ∀ a op, p.1.weight a = some op → op ≠ .nop → ∃ B, NodeEval (noiseOp W P ν κ.noise) p.1 a B)
      (after : ∀ t c u B, κ' (t, c) = some (u, B) →
        (∃ p ∈ gs, ∃ a B₀, p.1.weight a = some (.output t c) ∧ FEval P.degree κ.vals p.1 a u ∧ NodeEval (noiseOp W P ν κ.noise) p.1 a B₀ ∧ B₀ ≤ B) ∨
        ((∀ p ∈ gs, ∀ a, p.1.weight a ≠ some (.output t c)) ∧ ∃ B₀, κ (t, c) = some (u, B₀) ∧ B₀ ≤ B)) : StepKnown W P ν (.run gs) κ κ'
  | put {x : CtType × Nat} {m : Val} {E : Nat} {κ : Known} : StepKnown W P ν (.put x m E) κ (fun y => if y = x then some (m, E) else κ y)
  | trivial {t : CtType} {c : Nat} {b : Bool} {κ : Known} (h : t ≠ .ggsw1) : StepKnown W P ν (.trivial t c b) κ (fun y => if y = (t, c) then some (ctOf t b, 0) else κ y)
  | copy {x y : CtType × Nat} {κ : Known} : StepKnown W P ν (.copy x y) κ (fun z => if z = y then κ x else κ z)

/-- the steps one after the other -/
inductive SessionKnown (W : Nat) (P : EvalParams) (ν : NoiseLevels) : List CStep → Known → Known → Prop
  | nil {κ : Known} : SessionKnown W P ν [] κ κ
  | cons {st : CStep} {sts : List CStep} {κ κ' κ'' : Known} (h : StepKnown W P ν st κ κ') (t : SessionKnown W P ν sts κ' κ'') : SessionKnown W P ν (st :: sts) κ κ''

/-- What a step does to the ciphertexts, with the compute key `K` and floating-point errors within `F`. Circuits are run by any number of threads, with any number of tokens for flow control, under any schedule, until all is done;
`fired` is what the callbacks of the circuits report. -/
inductive StepRuns {W : Nat} (P : EvalParams) (n F : Nat) (s : List (BitVec W)) (sk : List (List (BitVec W))) (K : EvalKey W) :
    CStep → (CtType × Nat → Ct W) → (CtType × Nat → Ct W) → List (List (Option RtErr)) → Prop
  | run {gs : List (FGraph × List Nat)} {cells : CtType × Nat → Ct W} (err : FheOp → List (Ct W × FheEdge) → OpErr W) (he : ∀ op ins, ErrOk P n F (err op ins))
      {prog : List (Item FheOp RtErr FheEdge)} (hp : spawnAll gs 0 0 = some prog) (threads tokens : Nat) {st : State (Ct W) RtErr (CtType × Nat) FheEdge}
      (hr : Props.Reached (liftExec (execCt P K err)) threads tokens prog cells st) (hf : Props.Finished prog st) :
      StepRuns P n F s sk K (.run gs) cells st.cells ((List.range gs.length).map st.fired)
  | put {x : CtType × Nat} {m : Val} {E : Nat} {cells : CtType × Nat → Ct W} {c : Ct W} (h : CtEncrypts P s sk E m c) :
      StepRuns P n F s sk K (.put x m E) cells (fun y => if y = x then c else cells y) []
  | trivial {t : CtType} {i : Nat} {b : Bool} {cells : CtType × Nat → Ct W} (C : Consts W) {c : Ct W} (h : trivialBit P C t b = some c) :
      StepRuns P n F s sk K (.trivial t i b) cells (fun y => if y = (t, i) then c else cells y) []
  | copy {x y : CtType × Nat} {cells : CtType × Nat → Ct W} : StepRuns P n F s sk K (.copy x y) cells (fun z => if z = y then cells x else cells z) []

/-- the steps one after the other; `fired` collects the reports of all callbacks -/
inductive SessionRuns {W : Nat} (P : EvalParams) (n F : Nat) (s : List (BitVec W)) (sk : List (List (BitVec W))) (K : EvalKey W) :
    List CStep → (CtType × Nat → Ct W) → (CtType × Nat → Ct W) → List (List (Option RtErr)) → Prop
  | nil {cells : CtType × Nat → Ct W} : SessionRuns P n F s sk K [] cells cells []
  | cons {st : CStep} {sts : List CStep} {cells cells' cells'' : CtType × Nat → Ct W} {f fs : List (List (Option RtErr))} (h : StepRuns P n F s sk K st cells cells' f)
      (t : SessionRuns P n F s sk K sts cells' cells'' fs) : SessionRuns P n F s sk K (st :: sts) cells cells'' (f ++ fs)

end Spf.Spec
