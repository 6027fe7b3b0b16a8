import Verif.Proof.SchedInv
namespace Spf.Sched
open Finset
variable {Op Val Err Cell E : Type}

/-! ### flow-control tokens -/

def Phase.hold : Phase Err → Nat
  | .absent | .retire | .done => 0
  | _ => 1
def DPhase.hold : DPhase E → Nat
  | .count => 1
  | _ => 0

def InvB (prog : List (Item Op Err E)) (F : Nat) (s : State Val Err Cell E) : Prop :=
  s.tokens + (∑ i ∈ range prog.length, (s.phase i).hold) + s.dp.hold = F

theorem hold_move {n t : Nat} {ph : Nat → Phase Err} {p : Phase Err} (ht : t < n) :
    (∑ i ∈ range n, (upd ph t p i).hold) + (ph t).hold = (∑ i ∈ range n, (ph i).hold) + p.hold := by
  have := sum_change ht (fun i => (ph i).hold) (fun i => (upd ph t p i).hold) (by intro i hi; simp only [upd_ne _ _ hi])
  simpa only [upd_same] using this

theorem InvB.tr [DecidableEq Cell] {exec : Exec Op Val Err Cell E} {W F : Nat} {prog : List (Item Op Err E)}
    {s s' : State Val Err Cell E} (ha : InvA prog W s) (h : InvB prog F s) (tr : Tr exec W F prog s s') : InvB prog F s' := by
  unfold InvB at *
  have mv : ∀ {t it} {p : Phase Err} {q : Phase Err}, prog[t]? = some it → s.phase t = q → ∀ a b, q.hold = a → p.hold = b →
      (∑ i ∈ range prog.length, (upd s.phase t p i).hold) + a = (∑ i ∈ range prog.length, (s.phase i).hold) + b := by
    intro t it p q hp hq a b h1 h2
    rw [← h1, ← h2, ← hq]; exact hold_move (getElem?_lt hp)
  have bl : ∀ {t}, (s.phase t).isAbsent = false → 0 < s.numDeps t → s.phase t = .blocked := by
    intro t h1 h2
    have := (ha.blocked t h1).2 h2
    cases hq : s.phase t <;> rw [hq] at this <;> simp [Phase.isBlocked] at this <;> rfl
  cases tr with
  | pre it err hp hd he => rw [hd] at h; simpa [DPhase.hold] using h
  | recv it hp hd ht => rw [hd] at h; simp only [DPhase.hold] at h ⊢; omega
  | count it hp hd =>
    have hpc : (s.phase s.pc).isAbsent = true := (ha.absent s.pc).2 (Or.inr ⟨rfl, by rw [hd]; rfl⟩)
    have hpa : s.phase s.pc = .absent := by
      cases hq : s.phase s.pc <;> rw [hq] at hpc <;> simp [Phase.isAbsent] at hpc <;> rfl
    have := mv (p := .blocked) hp hpa 0 1 rfl rfl
    rw [hd] at h
    simp only [DPhase.hold] at h ⊢; omega
  | linkLocked it d ds hp hd hl => rw [hd] at h; simpa [DPhase.hold] using h
  | link it d ds hp hd hl => rw [hd] at h; simpa [DPhase.hold] using h
  | release it hp hd =>
    rw [hd] at h
    simp only [DPhase.hold] at h ⊢
    split
    · rename_i h1
      have hpc : (s.phase s.pc).isAbsent = false := by
        cases hq : (s.phase s.pc).isAbsent with
        | false => rfl
        | true =>
          rcases (ha.absent s.pc).1 hq with h1 | h1
          · omega
          · rw [hd] at h1; simp [DPhase.linking] at h1
      have := mv (p := .ready) hp (bl hpc (by omega)) 1 1 rfl rfl
      omega
    · exact h
  | start t it hp hd hw => have := mv (p := .started) hp hd 1 1 rfl rfl; simp only; omega
  | check t it hp hd =>
    have := mv (p := if (s.error it.circ).isNone then .exec else .lock) hp hd 1 1 rfl (by split <;> rfl)
    simp only; omega
  | execRetire t it hp hd ho => have := mv (p := .lock) hp hd 1 1 rfl rfl; simp only; omega
  | execFail t it op e hp hd ho he => have := mv (p := .fail e) hp hd 1 1 rfl rfl; simp only; omega
  | execOk t it op o w hp hd ho he => have := mv (p := .lock) hp hd 1 1 rfl rfl; simp only; omega
  | fail t it e hp hd => have := mv (p := .lock) hp hd 1 1 rfl rfl; simp only; omega
  | lock t it hp hd hl => have := mv (p := .notify) hp hd 1 1 rfl rfl; simp only; omega
  | notifyDone t it hp hd hw => have := mv (p := .send) hp hd 1 1 rfl rfl; simp only; omega
  | send t it hp hd ht => have := mv (p := .retire) hp hd 1 0 rfl rfl; simp only; omega
  | retire t it hp hd => have := mv (p := .done) hp hd 0 0 rfl rfl; simp only; omega
  | notify t it d ds hp hd hw =>
    simp only
    split
    · rename_i h1
      obtain ⟨hda, itd, hpd, _⟩ := ha.wsub t d (by rw [hw]; exact List.mem_cons_self ..)
      have := mv (p := .ready) hpd (bl hda (by omega)) 1 1 rfl rfl
      omega
    · exact h

theorem InvB.init [DecidableEq Cell] (prog : List (Item Op Err E)) (F : Nat) (cells : Cell → Val) :
    InvB prog F (init F cells : State Val Err Cell E) := by
  simp [InvB, Sched.init, Phase.hold, DPhase.hold]

/-! ### completion -/

def pend (it : Item Op Err E) : Phase Err → Nat
  | .done => 0
  | .absent => if it.op.isNone then 1 else 0
  | _ => 1

def cw (prog : List (Item Op Err E)) (ph : Nat → Phase Err) (c i : Nat) : Nat :=
  match prog[i]? with
  | none => 0
  | some it => if it.circ = c then pend it (ph i) else 0

def InCirc (prog : List (Item Op Err E)) (c : Nat) : Prop := ∃ (i : Nat) (it : Item Op Err E), prog[i]? = some it ∧ it.circ = c

structure InvC (prog : List (Item Op Err E)) (s : State Val Err Cell E) : Prop where
  rem : ∀ c, InCirc prog c → s.remaining c = ∑ i ∈ range prog.length, cw prog s.phase c i
  fired : ∀ c, InCirc prog c → s.fired c = if s.remaining c = 0 then [s.error c] else []

theorem cw_move {prog : List (Item Op Err E)} {ph : Nat → Phase Err} {p : Phase Err} {t c : Nat} {it : Item Op Err E} (hp : prog[t]? = some it) :
    (∑ i ∈ range prog.length, cw prog (upd ph t p) c i) + (if it.circ = c then pend it (ph t) else 0) =
    (∑ i ∈ range prog.length, cw prog ph c i) + (if it.circ = c then pend it p else 0) := by
  have := sum_change (getElem?_lt hp) (fun i => cw prog ph c i) (fun i => cw prog (upd ph t p) c i)
    (by intro i hi; simp only [cw, upd_ne _ _ hi])
  simpa only [cw, hp, upd_same] using this

theorem InvC.all_done {prog : List (Item Op Err E)} {W : Nat} (wf : WellFormed prog) {s : State Val Err Cell E}
    (ha : InvA prog W s) (h : InvC prog s) {i : Nat} {it : Item Op Err E} (hi : prog[i]? = some it)
    (h0 : s.remaining it.circ = 0) : s.phase i = .done := by
  have hrem := h.rem it.circ ⟨i, it, hi, rfl⟩
  have hz : ∀ j jt, prog[j]? = some jt → jt.circ = it.circ → pend jt (s.phase j) = 0 := by
    intro j jt hj hc
    have := le_sum (getElem?_lt hj) (fun k => cw prog s.phase it.circ k)
    simp only [cw, hj, hc, if_true] at this
    have h2 : ∑ k ∈ range prog.length, cw prog s.phase it.circ k = 0 := by omega
    simp only [cw] at h2
    omega
  obtain ⟨r, ir, hr, hrc, hro, hir⟩ := wf.last i it hi
  have hrd := hz r ir hr hrc
  have hrn : (s.phase r).isAbsent = false := by
    cases hq : s.phase r <;> rw [hq] at hrd <;> simp [pend, hro] at hrd <;> rfl
  have hin : (s.phase i).isAbsent = false := by
    cases hq : (s.phase i).isAbsent with
    | false => rfl
    | true =>
      have := (ha.absent i).1 hq
      have h2 := (ha.absent r)
      rw [hrn] at h2
      have : s.pc < r ∨ (r = s.pc ∧ s.dp.linking = false) := by
        rcases this with h3 | ⟨h3, h4⟩
        · left; omega
        · rcases Nat.lt_or_ge s.pc r with h5 | h5
          · exact Or.inl h5
          · exact Or.inr ⟨by omega, h4⟩
      have := h2.2 this; cases this
  have hid := hz i it hi rfl
  cases hq : s.phase i <;> rw [hq] at hid hin <;> simp [pend, Phase.isAbsent] at hid hin <;> rfl

theorem pend_one {it : Item Op Err E} {p : Phase Err} (h1 : p.isAbsent = false) (h2 : p ≠ .done) : pend it p = 1 := by
  cases p <;> simp_all [pend, Phase.isAbsent]

/-- Steps that change neither counters nor pending tasks. -/
theorem InvC.same {prog : List (Item Op Err E)} {s s' : State Val Err Cell E} (h : InvC prog s)
    (h1 : s'.remaining = s.remaining) (h2 : s'.fired = s.fired) (h3 : s'.error = s.error)
    (h4 : ∀ c i, cw prog s'.phase c i = cw prog s.phase c i) : InvC prog s' := by
  refine ⟨fun c hc => ?_, fun c hc => ?_⟩
  · rw [h1, h.rem c hc]; exact (sum_same _ _ (h4 c)).symm
  · rw [h1, h2, h3]; exact h.fired c hc

theorem cw_eq {prog : List (Item Op Err E)} {ph : Nat → Phase Err} {t : Nat} {p : Phase Err}
    (h : (ph t).isAbsent = false) (hd : ph t ≠ .done) (h' : p.isAbsent = false) (hd' : p ≠ .done) :
    ∀ c i, cw prog (upd ph t p) c i = cw prog ph c i := by
  intro c i
  unfold cw
  by_cases hi : i = t
  · subst hi
    cases hp : prog[i]? with
    | none => rfl
    | some it => dsimp only; rw [upd_same, pend_one h hd, pend_one h' hd']
  · rw [upd_ne _ _ hi]

theorem setError_ne {f : Nat → Option Err} {c c' : Nat} {e : Err} (h : c' ≠ c) : setError f c e c' = f c' := by
  unfold setError; cases hf : f c with
  | none => exact upd_ne _ _ h
  | some _ => rfl

theorem setError_same (f : Nat → Option Err) (c : Nat) (e : Err) : (setError f c e c).isSome = true := by
  unfold setError; cases hf : f c with
  | none => simp [upd]
  | some _ => simp [hf]

theorem setError_or (f : Nat → Option Err) (c c' : Nat) (e : Err) :
    setError f c e c' = f c' ∨ (c' = c ∧ f c = none ∧ setError f c e c' = some e) := by
  unfold setError; cases hf : f c with
  | some _ => exact Or.inl rfl
  | none =>
    by_cases h : c' = c
    · right; subst h; exact ⟨rfl, rfl, upd_same _ _ _⟩
    · left; exact upd_ne _ _ h

theorem InvC.tr [DecidableEq Cell] {exec : Exec Op Val Err Cell E} {W F : Nat} {prog : List (Item Op Err E)} (wf : WellFormed prog)
    {s s' : State Val Err Cell E} (ha : InvA prog W s) (h : InvC prog s) (tr : Tr exec W F prog s s') : InvC prog s' := by
  have bl : ∀ {t}, (s.phase t).isAbsent = false → 0 < s.numDeps t → s.phase t = .blocked := by
    intro t h1 h2
    have := (ha.blocked t h1).2 h2
    cases hq : s.phase t <;> rw [hq] at this <;> simp [Phase.isBlocked] at this <;> rfl
  cases tr with
  | pre it err hp hd he =>
    refine ⟨h.rem, fun c hc => ?_⟩
    simp only
    rw [h.fired c hc]
    by_cases h0 : s.remaining c = 0
    · have hne : c ≠ it.circ := by
        rintro rfl
        have := h.all_done wf ha hp h0
        have h2 := (ha.absent s.pc).2 (Or.inr ⟨rfl, by rw [hd]; rfl⟩)
        rw [this] at h2; cases h2
      rw [if_pos h0, if_pos h0]
      subst he
      cases it.pre with
      | none => rfl
      | some e => dsimp only; rw [setError_ne hne]
    · rw [if_neg h0, if_neg h0]
  | recv it hp hd ht => exact ⟨h.rem, h.fired⟩
  | linkLocked it d ds hp hd hl => exact ⟨h.rem, h.fired⟩
  | link it d ds hp hd hl => exact ⟨h.rem, h.fired⟩
  | count it hp hd =>
    have hpc : (s.phase s.pc).isAbsent = true := (ha.absent s.pc).2 (Or.inr ⟨rfl, by rw [hd]; rfl⟩)
    have hpa : s.phase s.pc = .absent := by
      cases hq : s.phase s.pc <;> rw [hq] at hpc <;> simp [Phase.isAbsent] at hpc <;> rfl
    have hnz : ∀ c, InCirc prog c → it.circ = c → s.remaining c ≠ 0 := by
      intro c _ hc h0
      subst hc
      have := h.all_done wf ha hp h0
      rw [hpa] at this; cases this
    refine ⟨fun c hc => ?_, fun c hc => ?_⟩
    · have := cw_move (ph := s.phase) (p := .blocked) (c := c) hp
      rw [hpa] at this
      have hr := h.rem c hc
      simp only
      cases ho : it.op with
      | none =>
        simp only [pend, ho, Option.isNone_none, if_true] at this ⊢
        omega
      | some op =>
        simp only [pend, ho, Option.isNone_some, Bool.false_eq_true, if_false] at this ⊢
        by_cases hcc : it.circ = c
        · subst hcc; rw [upd_same]; simp at this; omega
        · rw [upd_ne _ _ (fun h => hcc h.symm)]; simp [hcc] at this; omega
    · simp only
      rw [h.fired c hc]
      by_cases hcc : it.circ = c
      · have hz := hnz c hc hcc
        rw [if_neg hz]
        rw [if_neg]
        split
        · exact hz
        · subst hcc; rw [upd_same]; omega
      · have : (if it.op.isNone then s.remaining else upd s.remaining it.circ (s.remaining it.circ + 1)) c = s.remaining c := by
          split
          · rfl
          · exact upd_ne _ _ (fun h => hcc h.symm)
        rw [this]
  | release it hp hd =>
    refine h.same rfl rfl rfl ?_
    simp only
    split
    · have hpc : (s.phase s.pc).isAbsent = false := by
        cases hq : (s.phase s.pc).isAbsent with
        | false => rfl
        | true =>
          rcases (ha.absent s.pc).1 hq with h1 | h1
          · omega
          · rw [hd] at h1; simp [DPhase.linking] at h1
      exact cw_eq hpc (by rw [bl hpc (by omega)]; simp) rfl (by simp)
    · intro c i; rfl
  | start t it hp hd hw => exact h.same rfl rfl rfl (cw_eq (by rw [hd]; rfl) (by rw [hd]; simp) rfl (by simp))
  | check t it hp hd =>
    exact h.same rfl rfl rfl (cw_eq (by rw [hd]; rfl) (by rw [hd]; simp) (by split <;> rfl) (by split <;> simp))
  | execRetire t it hp hd ho => exact h.same rfl rfl rfl (cw_eq (by rw [hd]; rfl) (by rw [hd]; simp) rfl (by simp))
  | execFail t it op e hp hd ho he => exact h.same rfl rfl rfl (cw_eq (by rw [hd]; rfl) (by rw [hd]; simp) rfl (by simp))
  | execOk t it op o w hp hd ho he => exact h.same rfl rfl rfl (cw_eq (by rw [hd]; rfl) (by rw [hd]; simp) rfl (by simp))
  | lock t it hp hd hl => exact h.same rfl rfl rfl (cw_eq (by rw [hd]; rfl) (by rw [hd]; simp) rfl (by simp))
  | notifyDone t it hp hd hw => exact h.same rfl rfl rfl (cw_eq (by rw [hd]; rfl) (by rw [hd]; simp) rfl (by simp))
  | send t it hp hd ht => exact h.same rfl rfl rfl (cw_eq (by rw [hd]; rfl) (by rw [hd]; simp) rfl (by simp))
  | notify t it d ds hp hd hw =>
    refine h.same rfl rfl rfl ?_
    simp only
    split
    · obtain ⟨hda, _⟩ := ha.wsub t d (by rw [hw]; exact List.mem_cons_self ..)
      exact cw_eq hda (by rw [bl hda (by omega)]; simp) rfl (by simp)
    · intro c i; rfl
  | fail t it e hp hd =>
    have hcw := cw_eq (prog := prog) (ph := s.phase) (t := t) (p := .lock) (by rw [hd]; rfl) (by rw [hd]; simp) rfl (by simp)
    refine ⟨fun c hc => ?_, fun c hc => ?_⟩
    · simp only; rw [h.rem c hc]; exact (sum_same _ _ (hcw c)).symm
    · simp only
      rw [h.fired c hc]
      by_cases h0 : s.remaining c = 0
      · have hne : c ≠ it.circ := by
          rintro rfl
          have := h.all_done wf ha hp h0
          rw [hd] at this; cases this
        rw [if_pos h0, if_pos h0, setError_ne hne]
      · rw [if_neg h0, if_neg h0]
  | retire t it hp hd =>
    have hr0 := h.rem it.circ ⟨t, it, hp, rfl⟩
    have hmv := cw_move (ph := s.phase) (p := .done) (c := it.circ) hp
    rw [hd] at hmv
    simp only [pend, if_true] at hmv
    have hle := le_sum (getElem?_lt hp) (fun k => cw prog s.phase it.circ k)
    simp only [cw, hp, if_true, hd, pend] at hle
    have hpos : 1 ≤ s.remaining it.circ := by rw [hr0]; exact hle
    refine ⟨fun c hc => ?_, fun c hc => ?_⟩
    · simp only
      by_cases hcc : c = it.circ
      · subst hcc; rw [upd_same]; omega
      · have hmv' := cw_move (ph := s.phase) (p := .done) (c := c) hp
        rw [if_neg (fun h : it.circ = c => hcc h.symm), if_neg (fun h : it.circ = c => hcc h.symm)] at hmv'
        rw [upd_ne _ _ hcc, h.rem c hc]; omega
    · simp only
      by_cases hcc : c = it.circ
      · subst hcc
        rw [upd_same]
        have hf := h.fired it.circ hc
        rw [if_neg (by omega)] at hf
        by_cases h1 : s.remaining it.circ = 1
        · rw [if_pos h1, upd_same, hf, if_pos (by omega)]
        · rw [if_neg h1, hf, if_neg (by omega)]
      · have e : (if s.remaining it.circ = 1 then upd s.fired it.circ (s.error it.circ :: s.fired it.circ) else s.fired) c = s.fired c := by
          split
          · exact upd_ne _ _ hcc
          · rfl
        rw [e, upd_ne _ _ hcc]; exact h.fired c hc

theorem InvC.init [DecidableEq Cell] {prog : List (Item Op Err E)} (wf : WellFormed prog) (F : Nat) (cells : Cell → Val) :
    InvC prog (init F cells : State Val Err Cell E) := by
  refine ⟨fun c hc => ?_, fun c hc => ?_⟩
  · obtain ⟨i, it, hi, rfl⟩ := hc
    obtain ⟨r, ir, hr, hrc, hro, _⟩ := wf.last i it hi
    show 1 = _
    rw [Finset.sum_eq_single r]
    · simp [cw, hr, hrc, Sched.init, pend, hro]
    · intro j _ hj
      unfold cw
      cases hjp : prog[j]? with
      | none => rfl
      | some jt =>
        dsimp only
        split
        · rename_i hjc
          simp only [Sched.init, pend]
          split
          · rename_i hjo
            have h1 := wf.once r j ir jt hr hjp (by rw [hrc, hjc]) hro
            have h2 := wf.once j r jt ir hjp hr (by rw [hrc, hjc]) (by simpa using hjo)
            exact absurd (by omega) hj
          · rfl
        · rfl
    · intro h; exact absurd (mem_range.2 (getElem?_lt hr)) h
  · simp [Sched.init]

end Spf.Sched
