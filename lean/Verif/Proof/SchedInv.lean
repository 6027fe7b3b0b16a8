import Verif.Proof.Sched
namespace Spf.Sched
open Finset
variable {Op Val Err Cell E : Type}

def Phase.isLocked : Phase Err → Bool
  | .notify | .send | .retire | .done => true
  | _ => false
def Phase.isRunning : Phase Err → Bool
  | .started | .exec | .fail _ | .lock | .notify | .send | .retire => true
  | _ => false
def Phase.isSent : Phase Err → Bool
  | .send | .retire | .done => true
  | _ => false
def Phase.isAbsent : Phase Err → Bool
  | .absent => true
  | _ => false
def Phase.isBlocked : Phase Err → Bool
  | .blocked => true
  | _ => false
def DPhase.linking : DPhase E → Bool
  | .link _ => true
  | _ => false

/-- Bookkeeping of dependencies, locks and threads. -/
structure InvA (prog : List (Item Op Err E)) (W : Nat) (s : State Val Err Cell E) : Prop where
  pc_le : s.pc ≤ prog.length
  dp_pc : s.dp = .count ∨ s.dp.linking = true → s.pc < prog.length
  absent : ∀ t, (s.phase t).isAbsent = true ↔ s.pc < t ∨ (t = s.pc ∧ s.dp.linking = false)
  suffix : ∀ it rest, prog[s.pc]? = some it → s.dp = .link rest → ∀ d ∈ rest, d ∈ it.deps
  wsub : ∀ u t, t ∈ s.waiters u → (s.phase t).isAbsent = false ∧ ∃ it, prog[t]? = some it ∧ ∃ e, (u, e) ∈ it.deps
  linked : ∀ t it, prog[t]? = some it → (s.phase t).isAbsent = false → ∀ d ∈ it.deps,
    s.locked d.1 = true ∨ t ∈ s.waiters d.1 ∨ (t = s.pc ∧ ∃ rest, s.dp = .link rest ∧ d ∈ rest)
  num : ∀ t, (s.phase t).isAbsent = false →
    s.numDeps t = (if t = s.pc then 1 else 0) + ∑ u ∈ range prog.length, (s.waiters u).count t
  blocked : ∀ t, (s.phase t).isAbsent = false → ((s.phase t).isBlocked = true ↔ 0 < s.numDeps t)
  lock : ∀ u, s.locked u = (s.phase u).isLocked
  wnil : ∀ u, (s.phase u).isSent = true → s.waiters u = []
  run : ∀ t, t ∈ s.running ↔ (s.phase t).isRunning = true
  nodup : s.running.Nodup
  runs : ∀ t, s.runs t ≤ 1 ∧ (s.runs t = 1 → (s.phase t).isLocked = true ∨ s.phase t = .lock ∨ ∃ e, s.phase t = .fail e)

theorem InvA.lt {prog : List (Item Op Err E)} {W : Nat} {s : State Val Err Cell E} (h : InvA prog W s) {t : Nat}
    (ht : (s.phase t).isAbsent = false) : t < prog.length := by
  by_contra hc
  have := h.absent t
  rw [ht] at this
  have h1 : ¬(s.pc < t ∨ (t = s.pc ∧ s.dp.linking = false)) := fun x => by have := this.2 x; simp at this
  have h2 := h.pc_le
  have h3 : t = s.pc := by omega
  have h4 : s.dp.linking = true := by
    cases hl : s.dp.linking with
    | true => rfl
    | false => exact absurd (Or.inr ⟨h3, hl⟩) h1
  have := h.dp_pc (Or.inr h4)
  omega

theorem getElem?_lt {α : Type} {l : List α} {i : Nat} {a : α} (h : l[i]? = some a) : i < l.length :=
  (List.getElem?_eq_some_iff.1 h).1

/-- A step that moves one present, unblocked task to another such phase and leaves the dependency bookkeeping alone. -/
theorem InvA.move {prog : List (Item Op Err E)} {W : Nat} {s : State Val Err Cell E} (h : InvA prog W s) {t : Nat} {p : Phase Err}
    {s' : State Val Err Cell E} (hold : (s.phase t).isAbsent = false) (hob : (s.phase t).isBlocked = false)
    (hp : p.isAbsent = false) (hpb : p.isBlocked = false)
    (e1 : s'.pc = s.pc) (e2 : s'.dp = s.dp) (e3 : s'.phase = upd s.phase t p) (e4 : s'.numDeps = s.numDeps)
    (e5 : s'.waiters = s.waiters) (hl : s'.locked = upd s.locked t p.isLocked)
    (hlm : (s.phase t).isLocked = true → p.isLocked = true) (hs : p.isSent = true → s.waiters t = [])
    (hr : ∀ u, u ∈ s'.running ↔ (s'.phase u).isRunning = true) (hnd : s'.running.Nodup)
    (hrs : ∀ u, s'.runs u ≤ 1 ∧ (s'.runs u = 1 → (s'.phase u).isLocked = true ∨ s'.phase u = .lock ∨ ∃ e, s'.phase u = .fail e)) :
    InvA prog W s' := by
  have hab : ∀ u, (s'.phase u).isAbsent = (s.phase u).isAbsent := by
    intro u; rw [e3]
    by_cases hu : u = t
    · subst hu; rw [upd_same, hp, hold]
    · rw [upd_ne _ _ hu]
  have hbl : ∀ u, (s'.phase u).isBlocked = (s.phase u).isBlocked := by
    intro u; rw [e3]
    by_cases hu : u = t
    · subst hu; rw [upd_same, hpb, hob]
    · rw [upd_ne _ _ hu]
  refine ⟨by rw [e1]; exact h.pc_le, by rw [e1, e2]; exact h.dp_pc, ?_, by rw [e1, e2]; exact h.suffix, ?_, ?_, ?_, ?_, ?_, ?_, hr, hnd, hrs⟩
  · intro u; rw [hab, e1, e2]; exact h.absent u
  · intro u v; rw [hab, e5]; exact h.wsub u v
  · intro v it hv hva d hd
    rw [hab] at hva
    rw [e1, e2, e5]
    rcases h.linked v it hv hva d hd with h1 | h1 | h1
    · left; rw [hl]
      by_cases hu : d.1 = t
      · rw [hu, upd_same]; apply hlm; rw [← hu, ← h.lock, h1]
      · rw [upd_ne _ _ hu, h1]
    · exact Or.inr (Or.inl h1)
    · exact Or.inr (Or.inr h1)
  · intro u hu; rw [hab] at hu; rw [e4, e1, e5]; exact h.num u hu
  · intro u hu; rw [hab] at hu; rw [hbl, e4]; exact h.blocked u hu
  · intro u; rw [hl, e3]
    by_cases hu : u = t
    · subst hu; rw [upd_same, upd_same]
    · rw [upd_ne _ _ hu, upd_ne _ _ hu, h.lock]
  · intro u; rw [e3, e5]
    by_cases hu : u = t
    · subst hu; rw [upd_same]; exact hs
    · rw [upd_ne _ _ hu]; exact h.wnil u

theorem upd_self {α : Type} (f : Nat → α) (i : Nat) (v : α) (h : f i = v) : upd f i v = f := by
  funext j; unfold upd; split
  · rename_i hj; rw [hj, h]
  · rfl

theorem run_move {s : State Val Err Cell E} {t : Nat} {p : Phase Err} (h : ∀ u, u ∈ s.running ↔ (s.phase u).isRunning = true)
    (h1 : (s.phase t).isRunning = p.isRunning) : ∀ u, u ∈ s.running ↔ (upd s.phase t p u).isRunning = true := by
  intro u
  by_cases hu : u = t
  · subst hu; rw [upd_same, h, h1]
  · rw [upd_ne _ _ hu, h]

theorem runs_move {s : State Val Err Cell E} {t : Nat} {p : Phase Err}
    (h : ∀ u, s.runs u ≤ 1 ∧ (s.runs u = 1 → (s.phase u).isLocked = true ∨ s.phase u = .lock ∨ ∃ e, s.phase u = .fail e))
    (h1 : s.runs t = 1 → p.isLocked = true ∨ p = .lock ∨ ∃ e, p = .fail e) :
    ∀ u, s.runs u ≤ 1 ∧ (s.runs u = 1 → (upd s.phase t p u).isLocked = true ∨ upd s.phase t p u = .lock ∨ ∃ e, upd s.phase t p u = .fail e) := by
  intro u
  refine ⟨(h u).1, ?_⟩
  by_cases hu : u = t
  · subst hu; rw [upd_same]; exact h1
  · rw [upd_ne _ _ hu]; exact (h u).2

theorem runs_zero {s : State Val Err Cell E} {t : Nat}
    (h : ∀ u, s.runs u ≤ 1 ∧ (s.runs u = 1 → (s.phase u).isLocked = true ∨ s.phase u = .lock ∨ ∃ e, s.phase u = .fail e))
    (h1 : s.phase t = .exec ∨ s.phase t = .started ∨ s.phase t = .ready ∨ s.phase t = .blocked ∨ s.phase t = .absent) : s.runs t = 0 := by
  have := h t
  rcases Nat.lt_or_ge (s.runs t) 1 with h2 | h2
  · omega
  · have h3 := this.2 (by omega)
    rcases h1 with h1 | h1 | h1 | h1 | h1 <;> rw [h1] at h3 <;> simp [Phase.isLocked] at h3

theorem runs_exec {s : State Val Err Cell E} {t : Nat} {p : Phase Err}
    (h : ∀ u, s.runs u ≤ 1 ∧ (s.runs u = 1 → (s.phase u).isLocked = true ∨ s.phase u = .lock ∨ ∃ e, s.phase u = .fail e))
    (h0 : s.phase t = .exec) (h1 : p = .lock ∨ ∃ e, p = .fail e) :
    ∀ u, upd s.runs t (s.runs t + 1) u ≤ 1 ∧ (upd s.runs t (s.runs t + 1) u = 1 →
      (upd s.phase t p u).isLocked = true ∨ upd s.phase t p u = .lock ∨ ∃ e, upd s.phase t p u = .fail e) := by
  intro u
  by_cases hu : u = t
  · subst hu; rw [upd_same, upd_same, runs_zero h (Or.inl h0)]
    exact ⟨Nat.le_refl _, fun _ => Or.inr h1⟩
  · rw [upd_ne _ _ hu, upd_ne _ _ hu]; exact h u

theorem InvA.tr [DecidableEq Cell] {exec : Exec Op Val Err Cell E} {W F : Nat} {prog : List (Item Op Err E)}
    (wf : WellFormed prog) {s s' : State Val Err Cell E} (h : InvA prog W s) (tr : Tr exec W F prog s s') : InvA prog W s' := by
  cases tr with
  | pre it err hp hd he =>
    refine ⟨h.pc_le, by simp [DPhase.linking], ?_, by simp, h.wsub, ?_, h.num, h.blocked, h.lock, h.wnil, h.run, h.nodup, h.runs⟩
    · intro t; have := h.absent t; rw [hd] at this; simpa [DPhase.linking] using this
    · intro t it' ht ha d hm
      have := h.linked t it' ht ha d hm
      rw [hd] at this; simpa using this
  | recv it hp hd ht =>
    refine ⟨h.pc_le, fun _ => getElem?_lt hp, ?_, by simp, h.wsub, ?_, h.num, h.blocked, h.lock, h.wnil, h.run, h.nodup, h.runs⟩
    · intro t; have := h.absent t; rw [hd] at this; simpa [DPhase.linking] using this
    · intro t it' ht ha d hm
      have := h.linked t it' ht ha d hm
      rw [hd] at this; simpa using this
  | count it hp hd =>
    have hpc : (s.phase s.pc).isAbsent = true := (h.absent s.pc).2 (Or.inr ⟨rfl, by rw [hd]; rfl⟩)
    have hnw : ∀ u, s.pc ∉ s.waiters u := by
      intro u hm; have := (h.wsub u s.pc hm).1; rw [hpc] at this; cases this
    refine ⟨h.pc_le, fun _ => getElem?_lt hp, ?_, ?_, ?_, ?_, ?_, ?_, ?_, ?_, ?_, h.nodup, ?_⟩
    · intro t
      by_cases ht : t = s.pc
      · subst ht; simp [upd, Phase.isAbsent, DPhase.linking]
      · have := h.absent t
        rw [hd] at this
        simp only [upd_ne _ _ ht, DPhase.linking] at this ⊢
        rw [this]; simp [ht]
    · intro it' rest h1 h2 d hm
      simp only at h1
      rw [hp] at h1; cases h1; cases h2; exact hm
    · intro u t hm
      obtain ⟨a, b⟩ := h.wsub u t hm
      refine ⟨?_, b⟩
      have ht : t ≠ s.pc := by rintro rfl; exact hnw u hm
      simpa only [upd_ne _ _ ht] using a
    · intro t it' ht ha d hm
      by_cases hte : t = s.pc
      · subst hte
        rw [hp] at ht; cases ht
        exact Or.inr (Or.inr ⟨rfl, _, rfl, hm⟩)
      · simp only [upd_ne _ _ hte] at ha
        rcases h.linked t it' ht ha d hm with h1 | h1 | h1
        · exact Or.inl h1
        · exact Or.inr (Or.inl h1)
        · exact absurd h1.1 hte
    · intro t ha
      by_cases hte : t = s.pc
      · subst hte
        simp only [upd_same, if_true]
        have : ∑ u ∈ range prog.length, (s.waiters u).count s.pc = 0 :=
          Finset.sum_eq_zero fun u _ => List.count_eq_zero.2 (hnw u)
        rw [this]
      · simp only [upd_ne _ _ hte] at ha ⊢
        exact h.num t ha
    · intro t ha
      by_cases hte : t = s.pc
      · subst hte; simp [upd, Phase.isBlocked]
      · simp only [upd_ne _ _ hte] at ha ⊢
        exact h.blocked t ha
    · intro t
      by_cases hte : t = s.pc
      · subst hte
        simp only [upd_same, Phase.isLocked]
        rw [h.lock]
        cases hq : s.phase s.pc <;> rw [hq] at hpc <;> simp [Phase.isAbsent] at hpc <;> rfl
      · simp only [upd_ne _ _ hte]; exact h.lock t
    · intro t
      by_cases hte : t = s.pc
      · subst hte; simp [upd, Phase.isSent]
      · simp only [upd_ne _ _ hte]; exact h.wnil t
    · refine run_move h.run ?_
      cases hq : s.phase s.pc <;> rw [hq] at hpc <;> simp [Phase.isAbsent] at hpc <;> rfl
    · refine runs_move h.runs ?_
      intro h1
      have : s.phase s.pc = .absent := by
        cases hq : s.phase s.pc <;> rw [hq] at hpc <;> simp [Phase.isAbsent] at hpc <;> rfl
      have := runs_zero h.runs (t := s.pc) (by simp [this])
      omega
  | linkLocked it d ds hp hd hl =>
    refine ⟨h.pc_le, fun _ => getElem?_lt hp, ?_, ?_, h.wsub, ?_, h.num, h.blocked, h.lock, h.wnil, h.run, h.nodup, h.runs⟩
    · intro t; have := h.absent t; rw [hd] at this; simpa [DPhase.linking] using this
    · intro it' rest h1 h2 d' hm
      cases h2
      exact h.suffix it' _ h1 hd d' (List.mem_cons_of_mem _ hm)
    · intro t it' ht ha d' hm
      rcases h.linked t it' ht ha d' hm with h1 | h1 | ⟨h1, rest, h2, h3⟩
      · exact Or.inl h1
      · exact Or.inr (Or.inl h1)
      · rw [hd] at h2; cases h2
        rcases List.mem_cons.1 h3 with h4 | h4
        · subst h4; exact Or.inl hl
        · exact Or.inr (Or.inr ⟨h1, ds, rfl, h4⟩)
  | link it d ds hp hd hl =>
    have hpc : (s.phase s.pc).isAbsent = false := by
      cases hq : (s.phase s.pc).isAbsent with
      | false => rfl
      | true =>
        rcases (h.absent s.pc).1 hq with h1 | h1
        · omega
        · rw [hd] at h1; simp [DPhase.linking] at h1
    have hdm : d ∈ it.deps := h.suffix it _ hp hd d (List.mem_cons_self ..)
    have hdlt : d.1 < s.pc := (wf.deps s.pc it hp d hdm).1
    have hsent : (s.phase d.1).isSent = false := by
      rw [h.lock] at hl
      cases hq : s.phase d.1 <;> rw [hq] at hl <;> simp_all [Phase.isLocked, Phase.isSent]
    refine ⟨h.pc_le, fun _ => getElem?_lt hp, ?_, ?_, ?_, ?_, ?_, ?_, h.lock, ?_, h.run, h.nodup, h.runs⟩
    · intro t; have := h.absent t; rw [hd] at this; simpa [DPhase.linking] using this
    · intro it' rest h1 h2 d' hm
      cases h2
      exact h.suffix it' _ h1 hd d' (List.mem_cons_of_mem _ hm)
    · intro u t hm
      by_cases hu : u = d.1
      · subst hu
        simp only [upd_same] at hm
        rcases List.mem_cons.1 hm with h1 | h1
        · subst h1; exact ⟨hpc, it, hp, d.2, hdm⟩
        · exact h.wsub _ t h1
      · simp only [upd_ne _ _ hu] at hm; exact h.wsub u t hm
    · intro t it' ht ha d' hm
      have key : ∀ u, t ∈ s.waiters u → t ∈ upd s.waiters d.1 (s.pc :: s.waiters d.1) u := by
        intro u hu
        by_cases hue : u = d.1
        · subst hue; rw [upd_same]; exact List.mem_cons_of_mem _ hu
        · rw [upd_ne _ _ hue]; exact hu
      rcases h.linked t it' ht ha d' hm with h1 | h1 | ⟨h1, rest, h2, h3⟩
      · exact Or.inl h1
      · exact Or.inr (Or.inl (key _ h1))
      · rw [hd] at h2; cases h2
        rcases List.mem_cons.1 h3 with h4 | h4
        · subst h4; right; left
          simp only [upd_same]; rw [h1]; exact List.mem_cons_self ..
        · exact Or.inr (Or.inr ⟨h1, ds, rfl, h4⟩)
    · intro t ha
      have hn := h.num t ha
      have hsum := sum_change (n := prog.length) (t := d.1) (by have := getElem?_lt hp; omega)
        (fun u => (s.waiters u).count t) (fun u => (upd s.waiters d.1 (s.pc :: s.waiters d.1) u).count t)
        (by intro i hi; simp only [upd_ne _ _ hi])
      simp only [upd_same] at hsum
      by_cases hte : t = s.pc
      · subst hte
        simp only [upd_same, if_true] at hn ⊢
        rw [List.count_cons_self] at hsum
        omega
      · simp only [upd_ne _ _ hte, hte, if_false] at hn ⊢
        rw [List.count_cons_of_ne (by exact fun h => hte h.symm)] at hsum
        omega
    · intro t ha
      by_cases hte : t = s.pc
      · subst hte
        have := h.num s.pc ha
        have hb := h.blocked s.pc ha
        simp only [upd_same, if_true] at this ⊢
        rw [hb]; omega
      · simp only [upd_ne _ _ hte]; exact h.blocked t ha
    · intro u hu
      have : u ≠ d.1 := by
        rintro rfl; simp only at hu; rw [hsent] at hu; cases hu
      simp only [upd_ne _ _ this]; exact h.wnil u hu
  | release it hp hd =>
    have hpc : (s.phase s.pc).isAbsent = false := by
      cases hq : (s.phase s.pc).isAbsent with
      | false => rfl
      | true =>
        rcases (h.absent s.pc).1 hq with h1 | h1
        · omega
        · rw [hd] at h1; simp [DPhase.linking] at h1
    have hn := h.num s.pc hpc
    rw [if_pos rfl] at hn
    have hb := (h.blocked s.pc hpc).2 (by omega)
    have hbb : s.phase s.pc = .blocked := by
      cases hq : s.phase s.pc <;> rw [hq] at hb <;> simp [Phase.isBlocked] at hb <;> rfl
    have hph : ∀ t, t ≠ s.pc → (if s.numDeps s.pc = 1 then upd s.phase s.pc Phase.ready else s.phase) t = s.phase t := by
      intro t ht; split
      · rw [upd_ne _ _ ht]
      · rfl
    have hpp : (if s.numDeps s.pc = 1 then upd s.phase s.pc Phase.ready else s.phase) s.pc =
        if s.numDeps s.pc = 1 then .ready else .blocked := by
      split
      · rw [upd_same]
      · exact hbb
    have hcase : ∀ t, (if s.numDeps s.pc = 1 then upd s.phase s.pc Phase.ready else s.phase) t = s.phase t ∨
        (t = s.pc ∧ (if s.numDeps s.pc = 1 then upd s.phase s.pc Phase.ready else s.phase) t = .ready) := by
      intro t
      split
      · by_cases ht : t = s.pc
        · exact Or.inr ⟨ht, by rw [ht, upd_same]⟩
        · exact Or.inl (upd_ne _ _ ht)
      · exact Or.inl rfl
    have hab : ∀ t, ((if s.numDeps s.pc = 1 then upd s.phase s.pc Phase.ready else s.phase) t).isAbsent = (s.phase t).isAbsent := by
      intro t
      rcases hcase t with h1 | ⟨h1, h2⟩
      · rw [h1]
      · rw [h2, h1, hbb]; rfl
    refine ⟨getElem?_lt hp, by simp [DPhase.linking], ?_, by simp, ?_, ?_, ?_, ?_, ?_, ?_, ?_, h.nodup, ?_⟩
    · intro t
      simp only [hab]
      rw [h.absent t, hd]
      simp only [DPhase.linking]
      simp; omega
    · intro u t hm
      simp only [hab]; exact h.wsub u t hm
    · intro t it' ht ha d hm
      simp only [hab] at ha
      rcases h.linked t it' ht ha d hm with h1 | h1 | ⟨h1, rest, h2, h3⟩
      · exact Or.inl h1
      · exact Or.inr (Or.inl h1)
      · rw [hd] at h2; cases h2; simp at h3
    · intro t ha
      simp only [hab] at ha
      have hne : t ≠ s.pc + 1 := by
        rintro rfl
        have := (h.absent (s.pc + 1)).2 (Or.inl (Nat.lt_succ_self _))
        rw [ha] at this; cases this
      rw [if_neg hne]
      by_cases hte : t = s.pc
      · subst hte; simp only [upd_same]; omega
      · have := h.num t ha
        simp only [upd_ne _ _ hte, hte, if_false] at this ⊢
        exact this
    · intro t ha
      simp only [hab] at ha
      by_cases hte : t = s.pc
      · subst hte
        simp only [upd_same, hpp]
        by_cases h1 : s.numDeps s.pc = 1
        · simp [h1, Phase.isBlocked]
        · simp only [h1, if_false, Phase.isBlocked, true_iff]; omega
      · simp only [upd_ne _ _ hte, hph t hte]; exact h.blocked t ha
    · intro t
      simp only
      rcases hcase t with h1 | ⟨h1, h2⟩
      · rw [h1]; exact h.lock t
      · rw [h2, h1, h.lock, hbb]; rfl
    · intro t
      simp only
      rcases hcase t with h1 | ⟨h1, h2⟩
      · rw [h1]; exact h.wnil t
      · rw [h2]; intro h3; cases h3
    · intro t
      simp only
      rcases hcase t with h1 | ⟨h1, h2⟩
      · rw [h1]; exact h.run t
      · rw [h2, h.run, h1, hbb]; simp [Phase.isRunning]
    · intro t
      simp only
      refine ⟨(h.runs t).1, ?_⟩
      rcases hcase t with h1 | ⟨h1, h2⟩
      · rw [h1]; exact (h.runs t).2
      · intro h3
        have := runs_zero h.runs (t := t) (by rw [h1, hbb]; simp)
        omega
  | start t it hp hd hw =>
    refine h.move (t := t) (p := .started) (by rw [hd]; rfl) (by rw [hd]; rfl) rfl rfl rfl rfl rfl rfl rfl
      (upd_self _ _ _ (by rw [h.lock, hd]; rfl)).symm (by rw [hd]; intro h; cases h) (by intro h; cases h) ?_ ?_ (runs_move h.runs ?_)
    · intro u
      by_cases hu : u = t
      · subst hu; simp [upd, Phase.isRunning]
      · simp only [upd_ne _ _ hu, List.mem_cons, hu, false_or]; exact h.run u
    · refine List.nodup_cons.2 ⟨?_, h.nodup⟩
      rw [h.run, hd]; simp [Phase.isRunning]
    · intro h1; have := runs_zero h.runs (t := t) (by rw [hd]; simp); omega
  | check t it hp hd =>
    refine h.move (t := t) (p := _) (by rw [hd]; rfl) (by rw [hd]; rfl) (by split <;> rfl) (by split <;> rfl) rfl rfl rfl rfl rfl
      (upd_self _ _ _ (by rw [h.lock, hd]; split <;> rfl)).symm (by rw [hd]; intro h; cases h) ?_ (run_move h.run ?_) h.nodup (runs_move h.runs ?_)
    · split <;> (intro h; cases h)
    · rw [hd]; split <;> rfl
    · intro h1; have := runs_zero h.runs (t := t) (by rw [hd]; simp); omega
  | execRetire t it hp hd ho =>
    exact h.move (t := t) (p := .lock) (by rw [hd]; rfl) (by rw [hd]; rfl) rfl rfl rfl rfl rfl rfl rfl
      (upd_self _ _ _ (by rw [h.lock, hd]; rfl)).symm (by rw [hd]; intro h; cases h) (by intro h; cases h)
      (run_move h.run (by rw [hd]; rfl)) h.nodup (runs_exec h.runs hd (Or.inl rfl))
  | execFail t it op e hp hd ho he =>
    exact h.move (t := t) (p := .fail e) (by rw [hd]; rfl) (by rw [hd]; rfl) rfl rfl rfl rfl rfl rfl rfl
      (upd_self _ _ _ (by rw [h.lock, hd]; rfl)).symm (by rw [hd]; intro h; cases h) (by intro h; cases h)
      (run_move h.run (by rw [hd]; rfl)) h.nodup (runs_exec h.runs hd (Or.inr ⟨e, rfl⟩))
  | execOk t it op o w hp hd ho he =>
    exact h.move (t := t) (p := .lock) (by rw [hd]; rfl) (by rw [hd]; rfl) rfl rfl rfl rfl rfl rfl rfl
      (upd_self _ _ _ (by rw [h.lock, hd]; rfl)).symm (by rw [hd]; intro h; cases h) (by intro h; cases h)
      (run_move h.run (by rw [hd]; rfl)) h.nodup (runs_exec h.runs hd (Or.inl rfl))
  | fail t it e hp hd =>
    exact h.move (t := t) (p := .lock) (by rw [hd]; rfl) (by rw [hd]; rfl) rfl rfl rfl rfl rfl rfl rfl
      (upd_self _ _ _ (by rw [h.lock, hd]; rfl)).symm (by rw [hd]; intro h; cases h) (by intro h; cases h)
      (run_move h.run (by rw [hd]; rfl)) h.nodup (runs_move h.runs (fun _ => Or.inr (Or.inl rfl)))
  | lock t it hp hd hl =>
    exact h.move (t := t) (p := .notify) (by rw [hd]; rfl) (by rw [hd]; rfl) rfl rfl rfl rfl rfl rfl rfl
      rfl (by rw [hd]; intro h; cases h) (by intro h; cases h)
      (run_move h.run (by rw [hd]; rfl)) h.nodup (runs_move h.runs (fun _ => Or.inl rfl))
  | notifyDone t it hp hd hw =>
    exact h.move (t := t) (p := .send) (by rw [hd]; rfl) (by rw [hd]; rfl) rfl rfl rfl rfl rfl rfl rfl
      (upd_self _ _ _ (by rw [h.lock, hd]; rfl)).symm (fun _ => rfl) (fun _ => hw)
      (run_move h.run (by rw [hd]; rfl)) h.nodup (runs_move h.runs (fun _ => Or.inl rfl))
  | send t it hp hd ht =>
    exact h.move (t := t) (p := .retire) (by rw [hd]; rfl) (by rw [hd]; rfl) rfl rfl rfl rfl rfl rfl rfl
      (upd_self _ _ _ (by rw [h.lock, hd]; rfl)).symm (fun _ => rfl) (fun _ => h.wnil t (by rw [hd]; rfl))
      (run_move h.run (by rw [hd]; rfl)) h.nodup (runs_move h.runs (fun _ => Or.inl rfl))
  | retire t it hp hd =>
    refine h.move (t := t) (p := .done) (by rw [hd]; rfl) (by rw [hd]; rfl) rfl rfl rfl rfl rfl rfl rfl
      (upd_self _ _ _ (by rw [h.lock, hd]; rfl)).symm (fun _ => rfl) (fun _ => h.wnil t (by rw [hd]; rfl))
      ?_ (h.nodup.erase t) (runs_move h.runs (fun _ => Or.inl rfl))
    intro u
    simp only [h.nodup.mem_erase_iff]
    by_cases hu : u = t
    · subst hu; simp [upd, Phase.isRunning]
    · simp only [upd_ne _ _ hu, ne_eq, hu, not_false_eq_true, true_and]; exact h.run u
  | notify t it d ds hp hd hw =>
    have hdm : d ∈ s.waiters t := by rw [hw]; exact List.mem_cons_self ..
    obtain ⟨hda, itd, hpd, ed, hed⟩ := h.wsub t d hdm
    have htlt := getElem?_lt hp
    have hn := h.num d hda
    have hcnt : 0 < (s.waiters t).count d := List.count_pos_iff.2 hdm
    have hle := le_sum htlt (fun u => (s.waiters u).count d)
    have hb := (h.blocked d hda).2 (by omega)
    have hbb : s.phase d = .blocked := by
      cases hq : s.phase d <;> rw [hq] at hb <;> simp [Phase.isBlocked] at hb <;> rfl
    have hdt : d ≠ t := by rintro rfl; rw [hd] at hbb; cases hbb
    have hcase : ∀ t, (if s.numDeps d = 1 then upd s.phase d Phase.ready else s.phase) t = s.phase t ∨
        (t = d ∧ (if s.numDeps d = 1 then upd s.phase d Phase.ready else s.phase) t = .ready) := by
      intro t
      split
      · by_cases ht : t = d
        · exact Or.inr ⟨ht, by rw [ht, upd_same]⟩
        · exact Or.inl (upd_ne _ _ ht)
      · exact Or.inl rfl
    have hab : ∀ t, ((if s.numDeps d = 1 then upd s.phase d Phase.ready else s.phase) t).isAbsent = (s.phase t).isAbsent := by
      intro t
      rcases hcase t with h1 | ⟨h1, h2⟩
      · rw [h1]
      · rw [h2, h1, hbb]; rfl
    have hwm : ∀ u v, v ∈ upd s.waiters t ds u → v ∈ s.waiters u := by
      intro u v hv
      by_cases hu : u = t
      · subst hu; rw [upd_same] at hv; rw [hw]; exact List.mem_cons_of_mem _ hv
      · rwa [upd_ne _ _ hu] at hv
    refine ⟨h.pc_le, h.dp_pc, ?_, h.suffix, ?_, ?_, ?_, ?_, ?_, ?_, ?_, h.nodup, ?_⟩
    · intro u; simp only [hab]; exact h.absent u
    · intro u v hv; simp only [hab]; exact h.wsub u v (hwm u v hv)
    · intro v itv hv ha x hx
      simp only [hab] at ha
      rcases h.linked v itv hv ha x hx with h1 | h1 | h1
      · exact Or.inl h1
      · by_cases hxt : x.1 = t
        · left; simp only; rw [h.lock, hxt, hd]; rfl
        · right; left; simp only [upd_ne _ _ hxt]; exact h1
      · exact Or.inr (Or.inr h1)
    · intro v ha
      simp only [hab] at ha
      have hnv := h.num v ha
      have hsum := sum_change htlt (fun u => (s.waiters u).count v) (fun u => (upd s.waiters t ds u).count v)
        (by intro i hi; simp only [upd_ne _ _ hi])
      simp only [upd_same, hw] at hsum
      by_cases hvd : v = d
      · subst hvd
        rw [List.count_cons_self] at hsum
        simp only [upd_same]
        omega
      · rw [List.count_cons_of_ne (by exact fun h => hvd h.symm)] at hsum
        simp only [upd_ne _ _ hvd]
        omega
    · intro v ha
      simp only [hab] at ha
      by_cases hvd : v = d
      · subst hvd
        simp only [upd_same]
        have hpos : 0 < s.numDeps v := (h.blocked v ha).1 hb
        by_cases h1 : s.numDeps v = 1
        · simp [h1, upd, Phase.isBlocked]
        · simp only [h1, if_false, hb, true_iff]; omega
      · have : (if s.numDeps d = 1 then upd s.phase d Phase.ready else s.phase) v = s.phase v := by
          rcases hcase v with h1 | ⟨h1, _⟩
          · exact h1
          · exact absurd h1 hvd
        simp only [upd_ne _ _ hvd, this]; exact h.blocked v ha
    · intro u
      simp only
      rcases hcase u with h1 | ⟨h1, h2⟩
      · rw [h1]; exact h.lock u
      · rw [h2, h1, h.lock, hbb]; rfl
    · intro u
      simp only
      rcases hcase u with h1 | ⟨h1, h2⟩
      · rw [h1]; intro h3
        have hut : u ≠ t := by rintro rfl; rw [hd] at h3; cases h3
        rw [upd_ne _ _ hut]; exact h.wnil u h3
      · rw [h2]; intro h3; cases h3
    · intro u
      simp only
      rcases hcase u with h1 | ⟨h1, h2⟩
      · rw [h1]; exact h.run u
      · rw [h2, h.run, h1, hbb]; simp [Phase.isRunning]
    · intro u
      simp only
      refine ⟨(h.runs u).1, ?_⟩
      rcases hcase u with h1 | ⟨h1, h2⟩
      · rw [h1]; exact (h.runs u).2
      · intro h3
        have := runs_zero h.runs (t := u) (by rw [h1, hbb]; simp)
        omega

theorem InvA.init [DecidableEq Cell] (prog : List (Item Op Err E)) (W F : Nat) (cells : Cell → Val) :
    InvA prog W (init F cells : State Val Err Cell E) := by
  refine ⟨Nat.zero_le _, by simp [Sched.init, DPhase.linking], ?_, by simp [Sched.init], by simp [Sched.init], ?_, ?_, ?_, ?_, ?_, ?_, by simp [Sched.init], ?_⟩
  · intro t; simp [Sched.init, Phase.isAbsent, DPhase.linking]; omega
  · intro t it _ h; simp [Sched.init, Phase.isAbsent] at h
  · intro t h; simp [Sched.init, Phase.isAbsent] at h
  · intro t h; simp [Sched.init, Phase.isAbsent] at h
  · intro t; rfl
  · intro t _; rfl
  · intro t; simp [Sched.init, Phase.isRunning]
  · intro t; simp [Sched.init]

end Spf.Sched
