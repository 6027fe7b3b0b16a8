import Verif.Proof.SchedData
namespace Spf.Sched
open Finset
variable {Op Val Err Cell E : Type} [DecidableEq Cell]

/-- Everything dispatched and finished. -/
def Complete (prog : List (Item Op Err E)) (s : State Val Err Cell E) : Prop :=
  s.pc = prog.length ∧ ∀ t, t < prog.length → s.phase t = .done

theorem exists_waiter {prog : List (Item Op Err E)} {W : Nat} {s : State Val Err Cell E} (ha : InvA prog W s) {t : Nat}
    (hb : s.phase t = .blocked) (hpc : t ≠ s.pc) : ∃ u, u < prog.length ∧ t ∈ s.waiters u := by
  have hn := ha.num t (by rw [hb]; rfl)
  have hp := (ha.blocked t (by rw [hb]; rfl)).1 (by rw [hb]; rfl)
  rw [if_neg hpc] at hn
  by_contra hc
  have : ∑ u ∈ range prog.length, (s.waiters u).count t = 0 :=
    Finset.sum_eq_zero fun u hu => List.count_eq_zero.2 fun hm => hc ⟨u, mem_range.1 hu, hm⟩
  omega

/-- A running task can always move. -/
theorem running_moves {exec : Exec Op Val Err Cell E} {W F : Nat} {prog : List (Item Op Err E)} {s : State Val Err Cell E}
    (ha : InvA prog W s) (hb : InvB prog F s) {t : Nat} (ht : (s.phase t).isRunning = true) :
    ∃ s', step exec W F prog s (.task t) = some s' := by
  have hlt : t < prog.length := ha.lt (t := t) (by cases hq : s.phase t <;> rw [hq] at ht <;> simp [Phase.isRunning] at ht <;> rfl)
  have hp : prog[t]? = some prog[t] := List.getElem?_eq_getElem hlt
  simp only [step, taskStep, hp]
  cases hq : s.phase t with
  | absent => rw [hq] at ht; cases ht
  | blocked => rw [hq] at ht; cases ht
  | ready => rw [hq] at ht; cases ht
  | done => rw [hq] at ht; cases ht
  | started => exact ⟨_, rfl⟩
  | exec =>
    dsimp only
    cases prog[t].op with
    | none => exact ⟨_, rfl⟩
    | some op =>
      dsimp only
      cases exec op s.cells (prog[t].deps.map fun d => (s.out d.1, d.2)) with
      | error e => exact ⟨_, rfl⟩
      | ok r => exact ⟨_, rfl⟩
  | fail e => exact ⟨_, rfl⟩
  | lock =>
    dsimp only
    rw [if_neg (by rw [ha.lock, hq]; simp [Phase.isLocked])]
    exact ⟨_, rfl⟩
  | notify =>
    dsimp only
    cases s.waiters t with
    | nil => exact ⟨_, rfl⟩
    | cons d ds => exact ⟨_, rfl⟩
  | send =>
    dsimp only
    have h1 := le_sum hlt (fun i => (s.phase i).hold)
    unfold InvB at hb
    have h2 : (s.phase t).hold = 1 := by rw [hq]; rfl
    rw [if_pos (by omega)]
    exact ⟨_, rfl⟩
  | retire => exact ⟨_, rfl⟩

theorem progress {exec : Exec Op Val Err Cell E} {W F : Nat} {prog : List (Item Op Err E)} (wf : WellFormed prog)
    {s : State Val Err Cell E} (ha : InvA prog W s) (hb : InvB prog F s) (hW : 0 < W) (hF : 0 < F)
    (hc : ¬Complete prog s) : ∃ w s', step exec W F prog s w = some s' := by
  by_contra hstuck
  have nostep : ∀ w s', step exec W F prog s w ≠ some s' := fun w s' h => hstuck ⟨w, s', h⟩
  have hnr : ∀ t, (s.phase t).isRunning = false := by
    intro t
    cases hr : (s.phase t).isRunning with
    | false => rfl
    | true => obtain ⟨s', h⟩ := running_moves (exec := exec) ha hb hr; exact absurd h (nostep _ _)
  have hempty : s.running = [] := by
    cases hr : s.running with
    | nil => rfl
    | cons t l =>
      have := (ha.run t).1 (by rw [hr]; exact List.mem_cons_self ..)
      rw [hnr t] at this; cases this
  have hready : ∀ t, s.phase t ≠ .ready := by
    intro t hq
    have hlt : t < prog.length := ha.lt (t := t) (by rw [hq]; rfl)
    refine nostep (.task t) { s with phase := upd s.phase t .started, running := t :: s.running } ?_
    simp only [step, taskStep, List.getElem?_eq_getElem hlt, hq]
    rw [if_pos (by rw [hempty]; exact hW)]
  -- the dispatcher is not registering dependencies
  have hlink : s.dp.linking = false := by
    cases hd : s.dp with
    | link rest =>
      exfalso
      have hlt := ha.dp_pc (Or.inr (by rw [hd]; rfl))
      have hp : prog[s.pc]? = some prog[s.pc] := List.getElem?_eq_getElem hlt
      cases rest with
      | nil => exact nostep .dispatcher _ (by simp only [step, dispatchStep, hp, hd]; rfl)
      | cons d ds =>
        cases hl : s.locked d.1 with
        | true => exact nostep .dispatcher _ (by simp only [step, dispatchStep, hp, hd, hl, if_true]; rfl)
        | false => exact nostep .dispatcher _ (by simp only [step, dispatchStep, hp, hd, hl]; rfl)
    | _ => rfl
  have hblocked : ∀ t, s.phase t ≠ .blocked := by
    intro t
    induction t using Nat.strongRecOn with
    | _ t ih =>
      intro hq
      have hpc : t ≠ s.pc := by
        intro he
        have := (ha.absent t).2 (Or.inr ⟨he, hlink⟩)
        rw [hq] at this; cases this
      obtain ⟨u, hu, hm⟩ := exists_waiter ha hq hpc
      obtain ⟨_, it, hp, e, hdep⟩ := ha.wsub u t hm
      have hut : u < t := (wf.deps t it hp (u, e) hdep).1
      have hsent : (s.phase u).isSent = false := by
        cases hs : (s.phase u).isSent with
        | false => rfl
        | true => rw [ha.wnil u hs] at hm; cases hm
      have hab : (s.phase u).isAbsent = false := by
        cases hx : (s.phase u).isAbsent with
        | false => rfl
        | true =>
          have h1 := (ha.absent u).1 hx
          have h2 : ¬(s.pc < t ∨ (t = s.pc ∧ s.dp.linking = false)) := by
            intro h3; have := (ha.absent t).2 h3; rw [hq] at this; cases this
          exact absurd (Or.inl (by omega)) h2
      have h1 := hnr u
      have h2 := hready u
      have h3 := ih u hut
      cases hx : s.phase u <;> rw [hx] at hsent hab h1 h2 h3 <;> simp [Phase.isSent, Phase.isAbsent, Phase.isRunning] at hsent hab h1 h2 h3
  have hdone : ∀ t, s.phase t = .done ∨ s.phase t = .absent := by
    intro t
    have h1 := hnr t
    have h2 := hready t
    have h3 := hblocked t
    cases hx : s.phase t <;> rw [hx] at h1 h2 h3 <;> simp [Phase.isRunning] at h1 h2 h3 ⊢
  have hcnt : ∀ (it : Item Op Err E), prog[s.pc]? = some it → s.dp ≠ .count := by
    intro it hp hd
    exact nostep .dispatcher _ (by simp only [step, dispatchStep, hp, hd]; rfl)
  rcases Nat.lt_or_ge s.pc prog.length with hlt | hge
  · have hp : prog[s.pc]? = some prog[s.pc] := List.getElem?_eq_getElem hlt
    cases hd : s.dp with
    | pre => exact nostep .dispatcher _ (by simp only [step, dispatchStep, hp, hd]; rfl)
    | count => exact hcnt _ hp hd
    | link rest => rw [hd] at hlink; cases hlink
    | recv =>
      have hz : ∑ i ∈ range prog.length, (s.phase i).hold = 0 :=
        Finset.sum_eq_zero fun i _ => by rcases hdone i with h | h <;> rw [h] <;> rfl
      unfold InvB at hb
      rw [hz, hd] at hb
      simp only [DPhase.hold] at hb
      refine nostep .dispatcher { s with tokens := s.tokens - 1, dp := .count } ?_
      simp only [step, dispatchStep, hp, hd]
      rw [if_neg (by omega)]
  · have hpc : s.pc = prog.length := Nat.le_antisymm ha.pc_le hge
    refine hc ⟨hpc, fun t ht => ?_⟩
    rcases hdone t with h | h
    · exact h
    · have := (ha.absent t).1 (by rw [h]; rfl)
      omega

/-! ### termination -/

def Phase.rank : Phase Err → Nat
  | .absent => 10 | .blocked => 9 | .ready => 8 | .started => 7 | .exec => 6 | .fail _ => 5 | .lock => 4 | .notify => 3
  | .send => 2 | .retire => 1 | .done => 0

theorem rank_absent : (Phase.absent : Phase Err).rank = 10 := rfl
theorem rank_blocked : (Phase.blocked : Phase Err).rank = 9 := rfl
theorem rank_ready : (Phase.ready : Phase Err).rank = 8 := rfl

def cost (it : Item Op Err E) : Nat := 2 * it.deps.length + 4

def DPhase.left (it : Item Op Err E) : DPhase E → Nat
  | .pre => 2 * it.deps.length + 4
  | .recv => 2 * it.deps.length + 3
  | .count => 2 * it.deps.length + 2
  | .link rest => 2 * rest.length + 1

def dispLeft (prog : List (Item Op Err E)) (pc : Nat) (dp : DPhase E) : Nat :=
  (match prog[pc]? with
    | none => 0
    | some it => dp.left it) + ((prog.drop (pc + 1)).map cost).sum

def measure (prog : List (Item Op Err E)) (s : State Val Err Cell E) : Nat :=
  (∑ i ∈ range prog.length, (s.phase i).rank) + (∑ i ∈ range prog.length, (s.waiters i).length) + dispLeft prog s.pc s.dp

theorem dispLeft_next (prog : List (Item Op Err E)) (pc : Nat) :
    dispLeft prog (pc + 1) .pre = ((prog.drop (pc + 1)).map cost).sum := by
  unfold dispLeft
  cases h : prog[pc + 1]? with
  | none =>
    have := List.getElem?_eq_none_iff.1 h
    rw [List.drop_eq_nil_of_le (by omega), List.drop_eq_nil_of_le this]; rfl
  | some it =>
    obtain ⟨hi, he⟩ := List.getElem?_eq_some_iff.1 h
    rw [← List.getElem_cons_drop hi, he]
    simp [DPhase.left, cost]

theorem dispLeft_at {prog : List (Item Op Err E)} {pc : Nat} {it : Item Op Err E} (hp : prog[pc]? = some it) (dp : DPhase E) :
    dispLeft prog pc dp = dp.left it + ((prog.drop (pc + 1)).map cost).sum := by
  unfold dispLeft; rw [hp]

theorem left_pre (it : Item Op Err E) : (DPhase.pre : DPhase E).left it = it.deps.length + it.deps.length + 4 := by
  show 2 * it.deps.length + 4 = _; omega
theorem left_recv (it : Item Op Err E) : (DPhase.recv : DPhase E).left it = it.deps.length + it.deps.length + 3 := by
  show 2 * it.deps.length + 3 = _; omega
theorem left_count (it : Item Op Err E) : (DPhase.count : DPhase E).left it = it.deps.length + it.deps.length + 2 := by
  show 2 * it.deps.length + 2 = _; omega
theorem left_link (it : Item Op Err E) (r : List (Nat × E)) : (DPhase.link r : DPhase E).left it = r.length + r.length + 1 := by
  show 2 * r.length + 1 = _; omega

omit [DecidableEq Cell] in
theorem measure_move {prog : List (Item Op Err E)} {s s' : State Val Err Cell E} {t : Nat} {it : Item Op Err E} {p : Phase Err} (hp : prog[t]? = some it)
    (h1 : s'.phase = upd s.phase t p) (h2 : s'.waiters = s.waiters) (h3 : s'.pc = s.pc) (h4 : s'.dp = s.dp)
    (h5 : p.rank < (s.phase t).rank) : measure prog s' < measure prog s := by
  have := sum_change (getElem?_lt hp) (fun i => (s.phase i).rank) (fun i => (upd s.phase t p i).rank) (by intro i hi; simp only [upd_ne _ _ hi])
  rw [upd_same] at this
  unfold measure
  rw [h1, h2, h3, h4]
  omega

theorem measure_lt {exec : Exec Op Val Err Cell E} {W F : Nat} {prog : List (Item Op Err E)} (wf : WellFormed prog)
    {s s' : State Val Err Cell E} (ha : InvA prog W s) (tr : Tr exec W F prog s s') : measure prog s' < measure prog s := by
  have bl : ∀ {t}, (s.phase t).isAbsent = false → 0 < s.numDeps t → s.phase t = .blocked := by
    intro t h1 h2
    have := (ha.blocked t h1).2 h2
    cases hq : s.phase t <;> rw [hq] at this <;> simp [Phase.isBlocked] at this <;> rfl
  have rk : ∀ {t it} {p : Phase Err}, prog[t]? = some it → (∑ i ∈ range prog.length, (upd s.phase t p i).rank) + (s.phase t).rank =
      (∑ i ∈ range prog.length, (s.phase i).rank) + p.rank := by
    intro t it p hp
    have := sum_change (getElem?_lt hp) (fun i => (s.phase i).rank) (fun i => (upd s.phase t p i).rank) (by intro i hi; simp only [upd_ne _ _ hi])
    rwa [upd_same] at this
  cases tr with
  | pre it err hp hd he => simp only [measure, dispLeft_at hp, hd, left_pre, left_recv, left_count, left_link]; omega
  | recv it hp hd ht => simp only [measure, dispLeft_at hp, hd, left_pre, left_recv, left_count, left_link]; omega
  | count it hp hd =>
    have hpc : (s.phase s.pc).isAbsent = true := (ha.absent s.pc).2 (Or.inr ⟨rfl, by rw [hd]; rfl⟩)
    have hpa : s.phase s.pc = .absent := by
      cases hq : s.phase s.pc <;> rw [hq] at hpc <;> simp [Phase.isAbsent] at hpc <;> rfl
    have := rk (p := .blocked) hp
    rw [hpa, rank_absent, rank_blocked] at this
    simp only [measure, dispLeft_at hp, hd, left_pre, left_recv, left_count, left_link]; omega
  | linkLocked it d ds hp hd hl => simp only [measure, dispLeft_at hp, hd, left_link, List.length_cons]; omega
  | link it d ds hp hd hl =>
    have hdm : d ∈ it.deps := ha.suffix it _ hp hd d (List.mem_cons_self ..)
    have hdlt : d.1 < s.pc := (wf.deps s.pc it hp d hdm).1
    have := sum_change (n := prog.length) (t := d.1) (by have := getElem?_lt hp; omega) (fun i => (s.waiters i).length)
      (fun i => (upd s.waiters d.1 (s.pc :: s.waiters d.1) i).length) (by intro i hi; simp only [upd_ne _ _ hi])
    rw [upd_same, List.length_cons] at this
    simp only [measure, dispLeft_at hp, hd, left_link, List.length_cons]; omega
  | release it hp hd =>
    simp only [measure, dispLeft_next]
    have h0 : dispLeft prog s.pc s.dp = 1 + ((prog.drop (s.pc + 1)).map cost).sum := by
      unfold dispLeft; rw [hp, hd]; rfl
    rw [h0]
    split
    · rename_i h1
      have hpc : (s.phase s.pc).isAbsent = false := by
        cases hq : (s.phase s.pc).isAbsent with
        | false => rfl
        | true =>
          rcases (ha.absent s.pc).1 hq with h1 | h1
          · omega
          · rw [hd] at h1; simp [DPhase.linking] at h1
      have := rk (p := .ready) hp
      rw [bl hpc (by omega), rank_blocked, rank_ready] at this
      omega
    · omega
  | start t it hp hd hw => exact measure_move hp rfl rfl rfl rfl (by rw [hd]; simp [Phase.rank])
  | check t it hp hd => exact measure_move hp rfl rfl rfl rfl (by rw [hd]; split <;> simp [Phase.rank])
  | execRetire t it hp hd ho => exact measure_move hp rfl rfl rfl rfl (by rw [hd]; simp [Phase.rank])
  | execFail t it op e hp hd ho he => exact measure_move hp rfl rfl rfl rfl (by rw [hd]; simp [Phase.rank])
  | execOk t it op o w hp hd ho he => exact measure_move hp rfl rfl rfl rfl (by rw [hd]; simp [Phase.rank])
  | fail t it e hp hd => exact measure_move hp rfl rfl rfl rfl (by rw [hd]; simp [Phase.rank])
  | lock t it hp hd hl => exact measure_move hp rfl rfl rfl rfl (by rw [hd]; simp [Phase.rank])
  | notifyDone t it hp hd hw => exact measure_move hp rfl rfl rfl rfl (by rw [hd]; simp [Phase.rank])
  | send t it hp hd ht => exact measure_move hp rfl rfl rfl rfl (by rw [hd]; simp [Phase.rank])
  | retire t it hp hd => exact measure_move hp rfl rfl rfl rfl (by rw [hd]; simp [Phase.rank])
  | notify t it d ds hp hd hw =>
    have hwl := sum_change (getElem?_lt hp) (fun i => (s.waiters i).length) (fun i => (upd s.waiters t ds i).length)
      (by intro i hi; simp only [upd_ne _ _ hi])
    rw [upd_same, hw, List.length_cons] at hwl
    simp only [measure]
    split
    · obtain ⟨hda, itd, hpd, _⟩ := ha.wsub t d (by rw [hw]; exact List.mem_cons_self ..)
      have := rk (p := .ready) hpd
      rw [bl hda (by omega), rank_blocked, rank_ready] at this
      omega
    · omega

theorem measure_init {prog : List (Item Op Err E)} (F : Nat) (cells : Cell → Val) :
    measure prog (init F cells) = 10 * prog.length + (prog.map cost).sum := by
  have h : dispLeft prog 0 .pre = (prog.map cost).sum := by
    unfold dispLeft
    cases prog with
    | nil => rfl
    | cons it p => simp [DPhase.left, cost]
  simp [measure, Sched.init, Phase.rank, h, Nat.mul_comm]

/-! ### runs -/

/-- All invariants together. -/
structure Inv (exec : Exec Op Val Err Cell E) (W F : Nat) (prog : List (Item Op Err E)) (C : Cells exec prog) (cells : Cell → Val)
    (s : State Val Err Cell E) : Prop where
  a : InvA prog W s
  b : InvB prog F s
  c : InvC prog s
  d : InvD exec prog C cells (seqRun exec cells prog) s

theorem Inv.run {exec : Exec Op Val Err Cell E} {W F : Nat} {prog : List (Item Op Err E)} (wf : WellFormed prog) (C : Cells exec prog)
    {cells : Cell → Val} : ∀ {ws : List Who} {s s' : State Val Err Cell E}, Inv exec W F prog C cells s →
    Sched.run exec W F prog ws s = some s' → Inv exec W F prog C cells s' ∧ measure prog s' + ws.length ≤ measure prog s
  | [], s, s', h, hr => by cases hr; exact ⟨h, by simp⟩
  | w :: ws, s, s', h, hr => by
    rw [Sched.run] at hr
    cases hs : step exec W F prog s w with
    | none => rw [hs] at hr; cases hr
    | some s1 =>
      rw [hs] at hr
      have tr := step_tr hs
      obtain ⟨i, m⟩ := Inv.run wf C (s := s1) ⟨h.a.tr wf tr, h.b.tr h.a tr, h.c.tr wf h.a tr, h.d.tr wf h.a tr⟩ hr
      have := measure_lt wf h.a tr
      exact ⟨i, by simp only [List.length_cons]; omega⟩

theorem Inv.init {exec : Exec Op Val Err Cell E} {W F : Nat} {prog : List (Item Op Err E)} (wf : WellFormed prog) (C : Cells exec prog)
    (cells : Cell → Val) : Inv exec W F prog C cells (init F cells) :=
  ⟨InvA.init prog W F cells, InvB.init prog F cells, InvC.init wf F cells, InvD.init F cells⟩

end Spf.Sched
