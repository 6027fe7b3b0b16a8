import Verif.Proof.SchedGen
/-! Running circuits changes no cell but those of the output nodes, whatever the schedule and even if operations fail. -/
namespace Spf.Sched
variable {Op Val Err Cell E : Type} [DecidableEq Cell]

theorem frame_tr {exec : Exec Op Val Err Cell E} {W F : Nat} {prog : List (Item Op Err E)} {s s' : State Val Err Cell E} (h : Tr exec W F prog s s') {c : Cell}
    (hc : ∀ (i : Nat) (it : Item Op Err E) op cs ins o v, prog[i]? = some it → it.op = some op → exec op cs ins ≠ .ok (o, some (c, v))) : s'.cells c = s.cells c := by
  cases h with
  | execOk t it op o w h1 h2 h3 h4 =>
    cases w with
    | none => rfl
    | some w =>
      obtain ⟨c', v⟩ := w
      by_cases hcc : c = c'
      · subst hcc; exact absurd h4 (hc t it op _ _ o v h1 h3)
      · simp [writeCell, hcc]
  | _ => rfl

theorem frame_run {exec : Exec Op Val Err Cell E} {W F : Nat} {prog : List (Item Op Err E)} {c : Cell}
    (hc : ∀ (i : Nat) (it : Item Op Err E) op cs ins o v, prog[i]? = some it → it.op = some op → exec op cs ins ≠ .ok (o, some (c, v))) :
    ∀ {ws : List Who} {s s' : State Val Err Cell E}, Sched.run exec W F prog ws s = some s' → s'.cells c = s.cells c
  | [], s, s', h => by cases h; rfl
  | w :: ws, s, s', h => by
    rw [Sched.run] at h
    cases hs : step exec W F prog s w with
    | none => rw [hs] at h; cases h
    | some s1 =>
      rw [hs] at h
      exact (frame_run hc h).trans (frame_tr (step_tr hs) hc)
end Spf.Sched

namespace Spf.SchedG
open Spf.Fhe Spf.Sched Spf.CtExec
variable {V : Type} [Inhabited V] {ex : (CtType → Nat → V) → FheOp → List (V × FheEdge) → Option V}

/-- Cells that no output node of the circuits names keep their contents. -/
theorem frame_circuits {gs : List (FGraph × List Nat)} (h : ∀ p ∈ gs, TopoOrder p.1 p.2) {prog : List (Item FheOp RtErr FheEdge)}
    (hs : spawnAll gs 0 0 = some prog) {W F : Nat} {cells : CtType × Nat → V} {s : State V RtErr (CtType × Nat) FheEdge}
    (hr : Props.Reached (liftExec ex) W F prog cells s) {t : CtType} {c : Nat} (hn : ∀ p ∈ gs, ∀ n, p.1.weight n ≠ some (.output t c)) :
    s.cells (t, c) = cells (t, c) := by
  rw [spawnAll_eq gs 0 0 h] at hs
  cases hs
  obtain ⟨ws, hr⟩ := hr
  refine frame_run ?_ hr
  intro i it op cs ins o v hi ho hx
  obtain ⟨t', c', rfl, hcc⟩ := liftExec_write op cs ins o _ v hx
  obtain ⟨rfl, rfl⟩ := Prod.mk.inj hcc
  obtain ⟨k, p, a, n, h1, -, -, -, hw, -⟩ := item_node hi ho
  exact hn p (List.mem_of_getElem? h1) n hw

end Spf.SchedG
