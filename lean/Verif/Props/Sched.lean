import Verif.Proof.SchedLive
/-! C16-C19: the circuit processor, for any sequence of dispatched operations (`prog`), any operators (`exec`), any number of
threads (`W`), any flow-control budget (`F`) and any schedule. `C16_circuits` in `Props/SchedGraph` adds `spawn_graph`. -/
namespace Spf.Props
open Spf.Sched
variable {Op Val Err Cell E : Type} [DecidableEq Cell]

/-- The state `s` is reached by some schedule. -/
def Reached (exec : Exec Op Val Err Cell E) (W F : Nat) (prog : List (Item Op Err E)) (cells : Cell → Val)
    (s : State Val Err Cell E) : Prop :=
  ∃ sched, run exec W F prog sched (init F cells) = some s

/-- Everything was dispatched and has finished. -/
def Finished (prog : List (Item Op Err E)) (s : State Val Err Cell E) : Prop :=
  s.pc = prog.length ∧ ∀ t, t < prog.length → s.phase t = .done

/-- Circuit `c` has no failing operation: nothing was stored for it by the dispatcher, and sequentially all its operations
succeed. -/
def Clean (exec : Exec Op Val Err Cell E) (cells : Cell → Val) (prog : List (Item Op Err E)) (c : Nat) : Prop :=
  ∀ (i : Nat) (it : Item Op Err E), prog[i]? = some it → it.circ = c →
    it.pre = none ∧ ∃ o w, (seqRun exec cells prog)[i]? = some (.ok o w)

variable {exec : Exec Op Val Err Cell E} {W F : Nat} {prog : List (Item Op Err E)} {cells : Cell → Val} {s : State Val Err Cell E}

theorem Reached.inv (wf : WellFormed prog) (C : Cells exec prog) (h : Reached exec W F prog cells s) :
    Inv exec W F prog C cells s := by
  obtain ⟨ws, h⟩ := h
  exact (Inv.run wf C (Inv.init wf C cells) h).1

/-- C16: each operation is executed at most once, and when it is executed, each of its dependencies has been executed
exactly once, was successful, and holds the output of the sequential evaluation. -/
theorem C16_inputs (wf : WellFormed prog) (C : Cells exec prog) (h : Reached exec W F prog cells s) (t : Nat) :
    s.runs t ≤ 1 ∧
    ∀ (w : Who) (s' : State Val Err Cell E) (it : Item Op Err E), step exec W F prog s w = some s' → s'.runs t ≠ s.runs t →
      prog[t]? = some it → w = .task t ∧ s.runs t = 0 ∧ s'.runs t = 1 ∧
        ∀ d ∈ it.deps, s.runs d.1 = 1 ∧ ∃ o wr, (seqRun exec cells prog)[d.1]? = some (.ok o wr) ∧ s.out d.1 = o := by
  have hi := h.inv wf C
  refine ⟨(hi.a.runs t).1, ?_⟩
  intro w s' it hs hne hp
  have key : s.phase t = .exec → w = .task t → s'.runs t = s.runs t + 1 → w = .task t ∧ s.runs t = 0 ∧ s'.runs t = 1 ∧
      ∀ d ∈ it.deps, s.runs d.1 = 1 ∧ ∃ o wr, (seqRun exec cells prog)[d.1]? = some (.ok o wr) ∧ s.out d.1 = o := by
    intro hq hw hr
    have h0 : s.runs t = 0 := by
      have h1 := hi.a.runs t
      rcases Nat.lt_or_ge (s.runs t) 1 with h2 | h2
      · omega
      · have h3 := h1.2 (by omega)
        rw [hq] at h3
        rcases h3 with h3 | h3 | ⟨e, h3⟩
        · cases h3
        · cases h3
        · cases h3
    refine ⟨hw, h0, by omega, ?_⟩
    intro d hd
    obtain ⟨_, hok, o, wr, h1, h2, _⟩ := hi.d.exec t it hp hq d hd
    exact ⟨hok, o, wr, h1, h2⟩
  have mk : ∀ {u : Nat}, w = .task u → s.phase u = .exec → s'.runs = upd s.runs u (s.runs u + 1) → w = .task t ∧ s.runs t = 0 ∧ s'.runs t = 1 ∧
      ∀ d ∈ it.deps, s.runs d.1 = 1 ∧ ∃ o wr, (seqRun exec cells prog)[d.1]? = some (.ok o wr) ∧ s.out d.1 = o := by
    intro u hw hq hr
    by_cases hu : t = u
    · subst hu
      exact key hq hw (by rw [hr, upd_same])
    · rw [hr, upd_ne _ _ hu] at hne; exact absurd rfl hne
  cases w with
  | dispatcher =>
    exfalso
    have : s'.runs = s.runs := by
      simp only [step, dispatchStep] at hs
      cases hpc : prog[s.pc]? with
      | none => rw [hpc] at hs; cases hs
      | some it' =>
        rw [hpc] at hs
        dsimp only at hs
        cases hd : s.dp with
        | pre => rw [hd] at hs; cases hs; rfl
        | recv => rw [hd] at hs; dsimp only at hs; split at hs <;> cases hs; rfl
        | count => rw [hd] at hs; cases hs; rfl
        | link r =>
          rw [hd] at hs
          cases r with
          | nil => cases hs; rfl
          | cons d ds => dsimp only at hs; split at hs <;> cases hs <;> rfl
    rw [this] at hne; exact hne rfl
  | task u =>
    simp only [step, taskStep] at hs
    cases hpc : prog[u]? with
    | none => rw [hpc] at hs; cases hs
    | some it' =>
      rw [hpc] at hs
      dsimp only at hs
      cases hq : s.phase u with
      | exec =>
        rw [hq] at hs
        dsimp only at hs
        cases ho : it'.op with
        | none => rw [ho] at hs; cases hs; exact mk rfl hq rfl
        | some op =>
          rw [ho] at hs
          dsimp only at hs
          cases he : exec op s.cells (it'.deps.map fun d => (s.out d.1, d.2)) with
          | error e => rw [he] at hs; cases hs; exact mk rfl hq rfl
          | ok r => rw [he] at hs; cases hs; exact mk rfl hq rfl
      | absent => rw [hq] at hs; cases hs
      | blocked => rw [hq] at hs; cases hs
      | done => rw [hq] at hs; cases hs
      | ready => rw [hq] at hs; dsimp only at hs; split at hs <;> cases hs; exact absurd rfl hne
      | started => rw [hq] at hs; cases hs; exact absurd rfl hne
      | fail e => rw [hq] at hs; cases hs; exact absurd rfl hne
      | lock => rw [hq] at hs; dsimp only at hs; split at hs <;> cases hs; exact absurd rfl hne
      | notify => rw [hq] at hs; dsimp only at hs; split at hs <;> cases hs <;> exact absurd rfl hne
      | send => rw [hq] at hs; dsimp only at hs; split at hs <;> cases hs; exact absurd rfl hne
      | retire => rw [hq] at hs; cases hs; exact absurd rfl hne

/-- C16: when the callback of a circuit reports success, every operation of the circuit was executed exactly once, and
outputs and written cells are those of the sequential evaluation. -/
theorem C16_sequential (wf : WellFormed prog) (C : Cells exec prog) (h : Reached exec W F prog cells s) (c : Nat)
    (hf : none ∈ s.fired c) (i : Nat) (it : Item Op Err E) (hp : prog[i]? = some it) (hc : it.circ = c) :
    s.runs i = 1 ∧ ∃ o w, (seqRun exec cells prog)[i]? = some (.ok o w) ∧ s.out i = o ∧
      ∀ cell v, w = some (cell, v) → s.cells cell = v := by
  have hi := h.inv wf C
  subst hc
  have h1 := hi.c.fired it.circ ⟨i, it, hp, rfl⟩
  rw [h1] at hf
  split at hf
  · rename_i h0
    have he : s.error it.circ = none := by
      simp only [List.mem_singleton] at hf; exact hf.symm
    have hd := hi.c.all_done wf hi.a hp h0
    rcases hi.d.past i it hp (by rw [hd]; rfl) with h2 | h2
    · rw [he] at h2; cases h2
    · exact h2
  · cases hf

/-- C17: the callback never fires twice; when it has fired, all operations of the circuit have been dispatched and have
finished; and when everything has finished, it has fired. -/
theorem C17_callback (wf : WellFormed prog) (C : Cells exec prog) (h : Reached exec W F prog cells s) (c : Nat)
    (hc : ∃ (i : Nat) (it : Item Op Err E), prog[i]? = some it ∧ it.circ = c) :
    (s.fired c).length ≤ 1 ∧
    (s.fired c ≠ [] → ∀ (i : Nat) (it : Item Op Err E), prog[i]? = some it → it.circ = c → s.phase i = .done) ∧
    (Finished prog s → (s.fired c).length = 1) ∧
    ((∀ (i : Nat) (it : Item Op Err E), prog[i]? = some it → it.circ = c → s.phase i = .done) → (s.fired c).length = 1) := by
  have hi := h.inv wf C
  have h1 := hi.c.fired c hc
  have hall : (∀ (i : Nat) (it : Item Op Err E), prog[i]? = some it → it.circ = c → s.phase i = .done) → (s.fired c).length = 1 := by
    intro hd
    have h2 := hi.c.rem c hc
    have h3 : ∑ i ∈ Finset.range prog.length, cw prog s.phase c i = 0 := by
      refine Finset.sum_eq_zero fun i hi' => ?_
      have hp : prog[i]? = some (prog[i]'(Finset.mem_range.1 hi')) := List.getElem?_eq_getElem _
      simp only [cw, hp]
      split
      · rename_i hcc
        rw [hd i _ hp hcc]; rfl
      · rfl
    rw [h1, h2, h3, if_pos rfl]; rfl
  refine ⟨by rw [h1]; split <;> simp, ?_, ?_, hall⟩
  · intro hne i it hp hcc
    rw [h1] at hne
    split at hne
    · rename_i h0
      subst hcc
      exact hi.c.all_done wf hi.a hp h0
    · exact absurd rfl hne
  · intro hfin
    exact hall fun i it hp _ => hfin.2 i (getElem?_lt hp)

/-- C18: short of completion some step is possible, given a thread and a token. -/
theorem C18_progress (wf : WellFormed prog) (C : Cells exec prog) (h : Reached exec W F prog cells s) (hW : 0 < W) (hF : 0 < F)
    (hn : ¬Finished prog s) : ∃ w s', step exec W F prog s w = some s' :=
  progress wf (h.inv wf C).a (h.inv wf C).b hW hF hn

/-- C18: no schedule is longer than ten steps for each operation plus two for each dependency plus four. -/
theorem C18_terminates (wf : WellFormed prog) (C : Cells exec prog) (sched : List Who)
    (h : run exec W F prog sched (init F cells) = some s) :
    sched.length ≤ 10 * prog.length + (prog.map fun it => 2 * it.deps.length + 4).sum := by
  have := (Inv.run wf C (Inv.init wf C cells) h).2
  rw [measure_init] at this
  have h2 : (prog.map cost).sum = (prog.map fun it => 2 * it.deps.length + 4).sum := rfl
  omega

/-- C18: every schedule can be extended to one that finishes. -/
theorem C18_completes (wf : WellFormed prog) (C : Cells exec prog) (hW : 0 < W) (hF : 0 < F) (h : Reached exec W F prog cells s) :
    ∃ sched s', run exec W F prog sched s = some s' ∧ Finished prog s' := by
  obtain ⟨ws, hr⟩ := h
  suffices H : ∀ n (s : State Val Err Cell E), measure prog s ≤ n → Inv exec W F prog C cells s →
      ∃ sched s', run exec W F prog sched s = some s' ∧ Finished prog s' from
    H _ s (Nat.le_refl _) (Inv.run wf C (Inv.init wf C cells) hr).1
  intro n
  induction n with
  | zero =>
    intro s hm hi
    by_cases hf : Finished prog s
    · exact ⟨[], s, rfl, hf⟩
    · obtain ⟨w, s', hs⟩ := progress (exec := exec) wf hi.a hi.b hW hF hf
      have := measure_lt wf hi.a (step_tr hs)
      omega
  | succ n ih =>
    intro s hm hi
    by_cases hf : Finished prog s
    · exact ⟨[], s, rfl, hf⟩
    · obtain ⟨w, s1, hs⟩ := progress (exec := exec) wf hi.a hi.b hW hF hf
      have hlt := measure_lt wf hi.a (step_tr hs)
      have hi1 : Inv exec W F prog C cells s1 :=
        (Inv.run wf C (ws := [w]) hi (by simp only [run]; rw [hs])).1
      obtain ⟨ws, s2, h2, h3⟩ := ih s1 (by omega) hi1
      exact ⟨w :: ws, s2, by simp only [run]; rw [hs]; exact h2, h3⟩

/-- The budget must be positive: without tokens the first dispatch waits for ever. -/
theorem C18_no_tokens (it : Item Op Err E) (s : State Val Err Cell E)
    (h : Reached exec W 0 (it :: prog) cells s) : s.pc = 0 := by
  suffices H : ∀ (ws : List Who) (s s' : State Val Err Cell E), (s.pc = 0 ∧ (s.dp = .pre ∨ s.dp = .recv) ∧ s.tokens = 0 ∧
      ∀ t, s.phase t = .absent) → run exec W 0 (it :: prog) ws s = some s' → s'.pc = 0 by
    obtain ⟨ws, h⟩ := h
    exact H ws _ s ⟨rfl, Or.inl rfl, rfl, fun _ => rfl⟩ h
  intro ws
  induction ws with
  | nil => intro s s' h hr; cases hr; exact h.1
  | cons w ws ih =>
    rintro s s' ⟨h1, h2, h3, h4⟩ hr
    simp only [run] at hr
    cases w with
    | dispatcher =>
      simp only [step, dispatchStep, h1, List.getElem?_cons_zero] at hr
      rcases h2 with h2 | h2
      · rw [h2] at hr
        refine ih _ _ ⟨?_, ?_, ?_, ?_⟩ hr
        · rfl
        · exact Or.inr rfl
        · exact h3
        · exact h4
      · rw [h2] at hr
        simp [h3] at hr
    | task t =>
      simp only [step, taskStep, h4 t] at hr
      cases hq : (it :: prog)[t]? with
      | none => rw [hq] at hr; cases hr
      | some x => rw [hq] at hr; cases hr

/-- C19: what a callback reports. An error it reports was stored by the dispatcher for this circuit or is that of an
operation of this circuit which fails sequentially; it reports an error exactly if the circuit has a failing operation; and
it reports success exactly if not. -/
theorem C19_errors (wf : WellFormed prog) (C : Cells exec prog) (h : Reached exec W F prog cells s) (c : Nat)
    (r : Option Err) (hf : r ∈ s.fired c) (hc : ∃ (i : Nat) (it : Item Op Err E), prog[i]? = some it ∧ it.circ = c) :
    (∀ e, r = some e → ∃ (i : Nat) (it : Item Op Err E), prog[i]? = some it ∧ it.circ = c ∧
      (it.pre = some e ∨ (seqRun exec cells prog)[i]? = some (.err e))) ∧
    (r = none ↔ Clean exec cells prog c) := by
  have hi := h.inv wf C
  have h1 := hi.c.fired c hc
  rw [h1] at hf
  split at hf
  · rename_i h0
    have hr : r = s.error c := by simpa using hf
    have hgen : ∀ e, r = some e → ∃ (i : Nat) (it : Item Op Err E), prog[i]? = some it ∧ it.circ = c ∧
        (it.pre = some e ∨ (seqRun exec cells prog)[i]? = some (.err e)) := by
      intro e he
      exact hi.d.err c e (by rw [← hr, he])
    refine ⟨hgen, ?_, ?_⟩
    · intro hn i it hp hcc
      have hp0 := hi.c.all_done wf hi.a hp (by rw [hcc]; exact h0)
      have hne : s.error it.circ = none := by rw [hcc, ← hr, hn]
      constructor
      · cases hq : it.pre with
        | none => rfl
        | some e =>
          exfalso
          have hlt : i < s.pc ∨ (i = s.pc ∧ s.dp ≠ .pre) := by
            have h2 : ¬(s.pc < i ∨ (i = s.pc ∧ s.dp.linking = false)) := by
              intro h3
              have := (hi.a.absent i).2 h3
              rw [hp0] at this; cases this
            rcases Nat.lt_trichotomy i s.pc with h3 | h3 | h3
            · exact Or.inl h3
            · refine Or.inr ⟨h3, fun h4 => h2 (Or.inr ⟨h3, by rw [h4]; rfl⟩)⟩
            · exact absurd (Or.inl h3) h2
          have := hi.d.pre i it hp hlt (by rw [hq]; rfl)
          rw [hne] at this; cases this
      · rcases hi.d.past i it hp (by rw [hp0]; rfl) with h2 | ⟨_, o, w, h2, _⟩
        · rw [hne] at h2; cases h2
        · exact ⟨o, w, h2⟩
    · intro hcl
      cases r with
      | none => rfl
      | some e =>
        obtain ⟨i, it, hp, hcc, h2⟩ := hgen e rfl
        obtain ⟨h3, o, w, h4⟩ := hcl i it hp hcc
        rcases h2 with h2 | h2
        · rw [h3] at h2; cases h2
        · rw [h4] at h2; cases h2
  · cases hf

/-- C19: a circuit with a failing operation completes nevertheless: once everything has finished, its callback has reported
an error. -/
theorem C19_completes (wf : WellFormed prog) (C : Cells exec prog) (h : Reached exec W F prog cells s) (hfin : Finished prog s)
    (c : Nat) (hc : ∃ (i : Nat) (it : Item Op Err E), prog[i]? = some it ∧ it.circ = c) (hbad : ¬Clean exec cells prog c) :
    ∃ e, s.fired c = [some e] := by
  have h1 := (C17_callback wf C h c hc).2.2.1 hfin
  obtain ⟨r, hr⟩ := List.length_eq_one_iff.1 h1
  have h2 := C19_errors wf C h c r (by rw [hr]; simp) hc
  cases r with
  | some e => exact ⟨e, hr⟩
  | none => exact absurd (h2.2.1 rfl) hbad

end Spf.Props
