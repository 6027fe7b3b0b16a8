import Verif.Spec.Sched
import Mathlib.Algebra.BigOperators.Group.Finset.Basic
import Mathlib.Algebra.BigOperators.Intervals
import Mathlib.Tactic.Linarith
namespace Spf.Sched
open Finset
variable {Op Val Err Cell E : Type}

theorem upd_same {α : Type} (f : Nat → α) (i : Nat) (v : α) : upd f i v i = v := by simp [upd]
theorem upd_ne {α : Type} (f : Nat → α) {i j : Nat} (v : α) (h : j ≠ i) : upd f i v j = f j := by simp [upd, h]

/-- Changing one term of a sum. -/
theorem sum_change {n t : Nat} (ht : t < n) (f g : Nat → Nat) (h : ∀ i, i ≠ t → g i = f i) :
    (∑ i ∈ range n, g i) + f t = (∑ i ∈ range n, f i) + g t := by
  rw [← Finset.add_sum_erase _ f (mem_range.2 ht), ← Finset.add_sum_erase _ g (mem_range.2 ht)]
  have : ∑ x ∈ (range n).erase t, g x = ∑ x ∈ (range n).erase t, f x :=
    Finset.sum_congr rfl fun i hi => h i (Finset.ne_of_mem_erase hi)
  omega

theorem sum_same {n : Nat} (f g : Nat → Nat) (h : ∀ i, g i = f i) : (∑ i ∈ range n, g i) = ∑ i ∈ range n, f i :=
  Finset.sum_congr rfl fun i _ => h i

theorem le_sum {n t : Nat} (ht : t < n) (f : Nat → Nat) : f t ≤ ∑ i ∈ range n, f i :=
  by rw [← Finset.add_sum_erase _ f (mem_range.2 ht)]; omega

/-! ### sequential semantics -/

section
variable (exec : Exec Op Val Err Cell E) (cells : Cell → Val)

theorem seqRun_snoc (p : List (Item Op Err E)) (it : Item Op Err E) :
    seqRun exec cells (p ++ [it]) = seqRun exec cells p ++ [seqItem exec cells (seqRun exec cells p) it] := by
  simp [seqRun, List.foldl_append]

theorem seqRun_length (p : List (Item Op Err E)) : (seqRun exec cells p).length = p.length := by
  induction p using List.reverseRecOn with
  | nil => rfl
  | append_singleton p it ih => rw [seqRun_snoc]; simp [ih]

theorem seqRun_append (p q : List (Item Op Err E)) : ∃ r, seqRun exec cells (p ++ q) = seqRun exec cells p ++ r := by
  induction q using List.reverseRecOn with
  | nil => exact ⟨[], by simp⟩
  | append_singleton q it ih =>
    obtain ⟨r, hr⟩ := ih
    rw [← List.append_assoc, seqRun_snoc, hr]
    exact ⟨r ++ [seqItem exec cells (seqRun exec cells p ++ r) it], by simp⟩

theorem mapM_congr' {α β : Type} {f g : α → Option β} : ∀ {l : List α}, (∀ a ∈ l, f a = g a) → l.mapM f = l.mapM g
  | [], _ => rfl
  | a :: l, h => by
    rw [List.mapM_cons, List.mapM_cons, h a (by simp), mapM_congr' fun b hb => h b (by simp [hb])]

theorem seqAt {prog : List (Item Op Err E)} (wf : WellFormed prog) {i : Nat} {it : Item Op Err E} (h : prog[i]? = some it) :
    (seqRun exec cells prog)[i]? = some (seqItem exec cells (seqRun exec cells prog) it) := by
  obtain ⟨hi, he⟩ := List.getElem?_eq_some_iff.1 h
  have hsplit : prog = prog.take i ++ ([it] ++ prog.drop (i + 1)) := by
    rw [← he, List.singleton_append, List.getElem_cons_drop, List.take_append_drop]
  have hlen : (seqRun exec cells (prog.take i)).length = i := by rw [seqRun_length]; simp; omega
  obtain ⟨r, hr⟩ := seqRun_append exec cells (prog.take i ++ [it]) (prog.drop (i + 1))
  rw [List.append_assoc, ← hsplit, seqRun_snoc] at hr
  have hs : seqItem exec cells (seqRun exec cells (prog.take i)) it = seqItem exec cells (seqRun exec cells prog) it := by
    unfold seqItem
    cases hop : it.op with
    | none => rfl
    | some op =>
      dsimp only
      rw [mapM_congr' (l := it.deps) (f := fun d => ((seqRun exec cells (prog.take i))[d.1]?.bind Res.out?).map fun v => (v, d.2))]
      intro d hd
      have hlt := (wf.deps i it h d hd).1
      rw [hr, List.append_assoc, List.getElem?_append_left (by omega)]
  rw [← hs, hr, List.append_assoc, List.getElem?_append_right (by omega), hlen]
  simp

end

/-! ### transitions -/

section
variable [DecidableEq Cell]

/-- The steps, with their conditions. -/
inductive Tr (exec : Exec Op Val Err Cell E) (W F : Nat) (prog : List (Item Op Err E)) (s : State Val Err Cell E) : State Val Err Cell E → Prop
  | pre (it : Item Op Err E) (err) : prog[s.pc]? = some it → s.dp = .pre →
      err = (match it.pre with | none => s.error | some e => setError s.error it.circ e) →
      Tr exec W F prog s { s with error := err, dp := .recv }
  | recv (it : Item Op Err E) : prog[s.pc]? = some it → s.dp = .recv → s.tokens ≠ 0 →
      Tr exec W F prog s { s with tokens := s.tokens - 1, dp := .count }
  | count (it : Item Op Err E) : prog[s.pc]? = some it → s.dp = .count →
      Tr exec W F prog s { s with
        remaining := if it.op.isNone then s.remaining else upd s.remaining it.circ (s.remaining it.circ + 1)
        numDeps := upd s.numDeps s.pc 1, phase := upd s.phase s.pc .blocked, dp := .link it.deps }
  | linkLocked (it : Item Op Err E) (d ds) : prog[s.pc]? = some it → s.dp = .link (d :: ds) → s.locked d.1 = true →
      Tr exec W F prog s { s with dp := .link ds }
  | link (it : Item Op Err E) (d ds) : prog[s.pc]? = some it → s.dp = .link (d :: ds) → s.locked d.1 = false →
      Tr exec W F prog s { s with
        numDeps := upd s.numDeps s.pc (s.numDeps s.pc + 1), waiters := upd s.waiters d.1 (s.pc :: s.waiters d.1)
        dp := .link ds }
  | release (it : Item Op Err E) : prog[s.pc]? = some it → s.dp = .link [] →
      Tr exec W F prog s { s with
        numDeps := upd s.numDeps s.pc (s.numDeps s.pc - 1)
        phase := if s.numDeps s.pc = 1 then upd s.phase s.pc .ready else s.phase, pc := s.pc + 1, dp := .pre }
  | start (t : Nat) (it : Item Op Err E) : prog[t]? = some it → s.phase t = .ready → s.running.length < W →
      Tr exec W F prog s { s with phase := upd s.phase t .started, running := t :: s.running }
  | check (t : Nat) (it : Item Op Err E) : prog[t]? = some it → s.phase t = .started →
      Tr exec W F prog s { s with phase := upd s.phase t (if (s.error it.circ).isNone then .exec else .lock) }
  | execRetire (t : Nat) (it : Item Op Err E) : prog[t]? = some it → s.phase t = .exec → it.op = none →
      Tr exec W F prog s { s with phase := upd s.phase t .lock, runs := upd s.runs t (s.runs t + 1) }
  | execFail (t : Nat) (it : Item Op Err E) (op e) : prog[t]? = some it → s.phase t = .exec → it.op = some op →
      exec op s.cells (it.deps.map fun d => (s.out d.1, d.2)) = .error e →
      Tr exec W F prog s { s with phase := upd s.phase t (.fail e), runs := upd s.runs t (s.runs t + 1) }
  | execOk (t : Nat) (it : Item Op Err E) (op o w) : prog[t]? = some it → s.phase t = .exec → it.op = some op →
      exec op s.cells (it.deps.map fun d => (s.out d.1, d.2)) = .ok (o, w) →
      Tr exec W F prog s { s with
        out := upd s.out t o
        cells := writeCell s.cells w
        phase := upd s.phase t .lock, runs := upd s.runs t (s.runs t + 1) }
  | fail (t : Nat) (it : Item Op Err E) (e) : prog[t]? = some it → s.phase t = .fail e →
      Tr exec W F prog s { s with error := setError s.error it.circ e, phase := upd s.phase t .lock }
  | lock (t : Nat) (it : Item Op Err E) : prog[t]? = some it → s.phase t = .lock → s.locked t = false →
      Tr exec W F prog s { s with locked := upd s.locked t true, phase := upd s.phase t .notify }
  | notifyDone (t : Nat) (it : Item Op Err E) : prog[t]? = some it → s.phase t = .notify → s.waiters t = [] →
      Tr exec W F prog s { s with phase := upd s.phase t .send }
  | notify (t : Nat) (it : Item Op Err E) (d ds) : prog[t]? = some it → s.phase t = .notify → s.waiters t = d :: ds →
      Tr exec W F prog s { s with
        waiters := upd s.waiters t ds, numDeps := upd s.numDeps d (s.numDeps d - 1)
        phase := if s.numDeps d = 1 then upd s.phase d .ready else s.phase }
  | send (t : Nat) (it : Item Op Err E) : prog[t]? = some it → s.phase t = .send → s.tokens < F →
      Tr exec W F prog s { s with tokens := s.tokens + 1, phase := upd s.phase t .retire }
  | retire (t : Nat) (it : Item Op Err E) : prog[t]? = some it → s.phase t = .retire →
      Tr exec W F prog s { s with
        remaining := upd s.remaining it.circ (s.remaining it.circ - 1)
        fired := if s.remaining it.circ = 1 then upd s.fired it.circ (s.error it.circ :: s.fired it.circ) else s.fired
        phase := upd s.phase t .done, running := s.running.erase t }

theorem step_tr {exec : Exec Op Val Err Cell E} {W F : Nat} {prog : List (Item Op Err E)} {s s' : State Val Err Cell E} {w : Who}
    (h : step exec W F prog s w = some s') : Tr exec W F prog s s' := by
  cases w with
  | dispatcher =>
    simp only [step, dispatchStep] at h
    cases hp : prog[s.pc]? with
    | none => rw [hp] at h; cases h
    | some it =>
      rw [hp] at h; dsimp only at h
      cases hd : s.dp with
      | pre => rw [hd] at h; cases h; exact .pre it _ hp hd rfl
      | recv =>
        rw [hd] at h; dsimp only at h
        split at h
        · cases h
        · cases h; exact .recv it hp hd (by assumption)
      | count => rw [hd] at h; cases h; exact .count it hp hd
      | link rest =>
        rw [hd] at h
        cases rest with
        | nil => cases h; exact .release it hp hd
        | cons d ds =>
          dsimp only at h
          split at h
          · cases h; exact .linkLocked it d ds hp hd (by assumption)
          · rename_i hl; cases h; exact .link it d ds hp hd (by simpa using hl)
  | task t =>
    simp only [step, taskStep] at h
    cases hp : prog[t]? with
    | none => rw [hp] at h; cases h
    | some it =>
      rw [hp] at h; dsimp only at h
      cases hd : s.phase t with
      | absent => rw [hd] at h; cases h
      | blocked => rw [hd] at h; cases h
      | done => rw [hd] at h; cases h
      | ready =>
        rw [hd] at h; dsimp only at h
        split at h
        · cases h; exact .start t it hp hd (by assumption)
        · cases h
      | started => rw [hd] at h; cases h; exact .check t it hp hd
      | exec =>
        rw [hd] at h; dsimp only at h
        cases ho : it.op with
        | none => rw [ho] at h; cases h; exact .execRetire t it hp hd ho
        | some op =>
          rw [ho] at h; dsimp only at h
          cases he : exec op s.cells (it.deps.map fun d => (s.out d.1, d.2)) with
          | error e => rw [he] at h; cases h; exact .execFail t it op e hp hd ho he
          | ok r =>
            obtain ⟨o, w⟩ := r
            rw [he] at h; cases h; exact .execOk t it op o w hp hd ho he
      | fail e => rw [hd] at h; cases h; exact .fail t it e hp hd
      | lock =>
        rw [hd] at h; dsimp only at h
        split at h
        · cases h
        · rename_i hl; cases h; exact .lock t it hp hd (by simpa using hl)
      | notify =>
        rw [hd] at h; dsimp only at h
        cases hw : s.waiters t with
        | nil => rw [hw] at h; cases h; exact .notifyDone t it hp hd hw
        | cons d ds => rw [hw] at h; cases h; exact .notify t it d ds hp hd hw
      | send =>
        rw [hd] at h; dsimp only at h
        split at h
        · cases h; exact .send t it hp hd (by assumption)
        · cases h
      | retire => rw [hd] at h; cases h; exact .retire t it hp hd

end
end Spf.Sched
