import Verif.Proof.SchedMore
namespace Spf.Sched
open Finset
variable {Op Val Err Cell E : Type}

def Phase.isPast : Phase Err → Bool
  | .lock | .notify | .send | .retire | .done => true
  | _ => false

/-- Task `t` has produced what the sequential evaluation `rs` gives it. -/
def OkAt (rs : List (Res Val Err Cell)) (s : State Val Err Cell E) (t : Nat) : Prop :=
  s.runs t = 1 ∧ ∃ o w, rs[t]? = some (.ok o w) ∧ s.out t = o ∧ ∀ c v, w = some (c, v) → s.cells c = v

/-- An error that circuit `c` may report: one stored by the dispatcher, or that of an operation which fails in the
sequential evaluation. -/
def Genuine (prog : List (Item Op Err E)) (rs : List (Res Val Err Cell)) (c : Nat) (e : Err) : Prop :=
  ∃ (i : Nat) (it : Item Op Err E), prog[i]? = some it ∧ it.circ = c ∧ (it.pre = some e ∨ rs[i]? = some (.err e))

structure InvD (exec : Exec Op Val Err Cell E) (prog : List (Item Op Err E)) (C : Cells exec prog) (cells : Cell → Val)
    (rs : List (Res Val Err Cell)) (s : State Val Err Cell E) : Prop where
  past : ∀ t it, prog[t]? = some it → (s.phase t).isPast = true → (s.error it.circ).isSome = true ∨ OkAt rs s t
  exec : ∀ t it, prog[t]? = some it → s.phase t = .exec → ∀ d ∈ it.deps, (s.phase d.1).isLocked = true ∧ OkAt rs s d.1
  fail : ∀ t e, s.phase t = .fail e → rs[t]? = some (.err e)
  err : ∀ c e, s.error c = some e → Genuine prog rs c e
  pre : ∀ i it, prog[i]? = some it → i < s.pc ∨ (i = s.pc ∧ s.dp ≠ .pre) → it.pre.isSome = true → (s.error it.circ).isSome = true
  cell : ∀ c, s.cells c = cells c ∨ ∃ t it op, prog[t]? = some it ∧ it.op = some op ∧ C.writes op c ∧ (s.phase t).isPast = true
  fresh : ∀ t, s.runs t = 0 → s.out t = none

/-- What the sequential evaluation writes is among the operator's cells. -/
theorem seq_write {exec : Exec Op Val Err Cell E} {prog : List (Item Op Err E)} (C : Cells exec prog) (wf : WellFormed prog)
    {cells : Cell → Val} {t : Nat} {it : Item Op Err E} (hp : prog[t]? = some it) {o c v}
    (h : (seqRun exec cells prog)[t]? = some (.ok o (some (c, v)))) : ∃ op, it.op = some op ∧ C.writes op c := by
  rw [seqAt exec cells wf hp] at h
  have h := Option.some.inj h
  unfold seqItem at h
  cases ho : it.op with
  | none => rw [ho] at h; cases h
  | some op =>
    rw [ho] at h; dsimp only at h
    split at h
    · cases h
    · split at h
      · rename_i he
        cases h
        exact ⟨op, rfl, C.write_ok _ _ _ _ _ _ he⟩
      · cases h

theorem mapM_ok {rs : List (Res Val Err Cell)} {s : State Val Err Cell E} : ∀ {l : List (Nat × E)}, (∀ d ∈ l, OkAt rs s d.1) →
    l.mapM (fun d => (rs[d.1]?.bind Res.out?).map fun v => (v, d.2)) = some (l.map fun d => (s.out d.1, d.2))
  | [], _ => rfl
  | d :: l, h => by
    obtain ⟨_, o, w, h1, h2, _⟩ := h d (List.mem_cons_self ..)
    rw [List.mapM_cons, mapM_ok fun x hx => h x (List.mem_cons_of_mem _ hx), h1]
    simp [Res.out?, h2]

theorem seq_exec {exec : Exec Op Val Err Cell E} {prog : List (Item Op Err E)} {C : Cells exec prog} (wf : WellFormed prog)
    {cells : Cell → Val} {s : State Val Err Cell E} {t : Nat} {it : Item Op Err E} {op : Op} (hp : prog[t]? = some it)
    (ho : it.op = some op) (h : InvD exec prog C cells (seqRun exec cells prog) s) (hx : s.phase t = .exec) :
    (seqRun exec cells prog)[t]? = some (match exec op s.cells (it.deps.map fun d => (s.out d.1, d.2)) with
      | .ok (o, w) => .ok o w
      | .error e => .err e) := by
  rw [seqAt exec cells wf hp]
  unfold seqItem
  rw [ho]; dsimp only
  rw [mapM_ok fun d hd => (h.exec t it hp hx d hd).2]
  dsimp only
  rw [C.read_ok op s.cells cells _ ?_]
  · cases exec op cells (it.deps.map fun d => (s.out d.1, d.2)) <;> rfl
  · intro c hc
    rcases h.cell c with h1 | ⟨t', it', op', h1, h2, h3, _⟩
    · exact h1
    · exact absurd h3 (C.no_race t t' it it' op op' c hp h1 ho h2 hc)

/-- A step that moves a task and changes no data. -/
theorem InvD.same {exec : Exec Op Val Err Cell E} {prog : List (Item Op Err E)} {C : Cells exec prog} {cells : Cell → Val}
    {rs : List (Res Val Err Cell)} {s s' : State Val Err Cell E} (h : InvD exec prog C cells rs s)
    (h1 : ∀ c, (s.error c).isSome = true → s'.error c = s.error c) (h1' : ∀ c e, s'.error c = some e → Genuine prog rs c e)
    (h2 : s'.out = s.out) (h3 : s'.cells = s.cells) (h4 : s'.runs = s.runs)
    (h5 : ∀ u, (s'.phase u).isPast = true → (s.phase u).isPast = true ∨
      ∀ it, prog[u]? = some it → (s'.error it.circ).isSome = true ∨ OkAt rs s u)
    (h6 : ∀ u, s'.phase u = .exec → s.phase u = .exec ∨
      ∀ it, prog[u]? = some it → ∀ d ∈ it.deps, (s.phase d.1).isLocked = true ∧ OkAt rs s d.1)
    (h7 : ∀ u e, s'.phase u = .fail e → s.phase u = .fail e)
    (h8 : ∀ u, (s.phase u).isPast = true → (s'.phase u).isPast = true)
    (h9 : ∀ u, (s.phase u).isLocked = true → (s'.phase u).isLocked = true)
    (h10 : ∀ i it, prog[i]? = some it → i < s'.pc ∨ (i = s'.pc ∧ s'.dp ≠ .pre) → it.pre.isSome = true → (s'.error it.circ).isSome = true) :
    InvD exec prog C cells rs s' := by
  have hok : ∀ u, OkAt rs s u → OkAt rs s' u := by
    intro u hu; unfold OkAt at *; rw [h2, h3, h4]; exact hu
  refine ⟨?_, ?_, ?_, h1', h10, ?_, ?_⟩
  · intro t it hp ht
    rcases h5 t ht with h | h'
    · rcases InvD.past ‹_› t it hp h with h' | h'
      · left; rw [h1 _ h']; exact h'
      · exact Or.inr (hok t h')
    · rcases h' it hp with h' | h'
      · exact Or.inl h'
      · exact Or.inr (hok t h')
  · intro t it hp ht d hd
    rcases h6 t ht with h' | h'
    · have := h.exec t it hp h' d hd; exact ⟨h9 _ this.1, hok _ this.2⟩
    · have := h' it hp d hd; exact ⟨h9 _ this.1, hok _ this.2⟩
  · intro t e ht; exact h.fail t e (h7 t e ht)
  · intro c; rw [h3]
    rcases h.cell c with h' | ⟨t, it, op, a, b, c', d⟩
    · exact Or.inl h'
    · exact Or.inr ⟨t, it, op, a, b, c', h8 t d⟩
  · intro t; rw [h2, h4]; exact h.fresh t

section
variable [DecidableEq Cell]

theorem deps_ok {exec : Exec Op Val Err Cell E} {W : Nat} {prog : List (Item Op Err E)} {C : Cells exec prog}
    (wf : WellFormed prog) {cells : Cell → Val} {s : State Val Err Cell E} (ha : InvA prog W s)
    (h : InvD exec prog C cells (seqRun exec cells prog) s) {t : Nat} {it : Item Op Err E} (hp : prog[t]? = some it)
    (hn : (s.phase t).isAbsent = false) (hb : (s.phase t).isBlocked = false) (he : s.error it.circ = none) :
    ∀ d ∈ it.deps, (s.phase d.1).isLocked = true ∧ OkAt (seqRun exec cells prog) s d.1 := by
  intro d hd
  have hz : s.numDeps t = 0 := by
    have := ha.blocked t hn
    rw [hb] at this
    by_contra hc
    have := this.2 (by omega); cases this
  have hnum := ha.num t hn
  obtain ⟨hlt, it', hp', hc'⟩ := wf.deps t it hp d hd
  have hdl : d.1 < prog.length := getElem?_lt hp'
  have hlk : s.locked d.1 = true := by
    rcases ha.linked t it hp hn d hd with h1 | h1 | ⟨h1, _⟩
    · exact h1
    · have := le_sum hdl (fun u => (s.waiters u).count t)
      have h2 : 0 < (s.waiters d.1).count t := List.count_pos_iff.2 h1
      omega
    · rw [if_pos h1] at hnum; omega
  rw [ha.lock] at hlk
  have hpast : (s.phase d.1).isPast = true := by
    cases hq : s.phase d.1 <;> rw [hq] at hlk <;> simp [Phase.isLocked] at hlk <;> rfl
  refine ⟨hlk, ?_⟩
  rcases h.past d.1 it' hp' hpast with h1 | h1
  · rw [hc', he] at h1; cases h1
  · exact h1

theorem InvD.tr {exec : Exec Op Val Err Cell E} {W F : Nat} {prog : List (Item Op Err E)} {C : Cells exec prog}
    (wf : WellFormed prog) {cells : Cell → Val} {s s' : State Val Err Cell E} (ha : InvA prog W s)
    (h : InvD exec prog C cells (seqRun exec cells prog) s) (tr : Tr exec W F prog s s') :
    InvD exec prog C cells (seqRun exec cells prog) s' := by
  have bl : ∀ {t}, (s.phase t).isAbsent = false → 0 < s.numDeps t → s.phase t = .blocked := by
    intro t h1 h2
    have := (ha.blocked t h1).2 h2
    cases hq : s.phase t <;> rw [hq] at this <;> simp [Phase.isBlocked] at this <;> rfl
  -- moving one task between phases of no interest here
  have mv : ∀ {t : Nat} {q p : Phase Err}, s.phase t = q →
      (p.isPast = true → q.isPast = true ∨ ∀ it, prog[t]? = some it → (s.error it.circ).isSome = true ∨ OkAt (seqRun exec cells prog) s t) →
      (p = .exec → ∀ it, prog[t]? = some it → ∀ d ∈ it.deps, (s.phase d.1).isLocked = true ∧ OkAt (seqRun exec cells prog) s d.1) →
      (∀ e, p ≠ .fail e) → (q.isPast = true → p.isPast = true) → (q.isLocked = true → p.isLocked = true) →
      ∀ s' : State Val Err Cell E, s'.error = s.error → s'.out = s.out → s'.cells = s.cells → s'.runs = s.runs →
      s'.phase = upd s.phase t p →
      (∀ i, (i < s'.pc ∨ (i = s'.pc ∧ s'.dp ≠ .pre)) → (i < s.pc ∨ (i = s.pc ∧ s.dp ≠ .pre))) →
      InvD exec prog C cells (seqRun exec cells prog) s' := by
    intro t q p hq c1 c2 c3 c4 c5 s' e1 e2 e3 e4 e5 e6
    refine h.same (fun c _ => by rw [e1]) (fun c e he => h.err c e (by rw [← e1]; exact he)) e2 e3 e4 ?_ ?_ ?_ ?_ ?_ ?_
    · intro u hu; rw [e5] at hu
      by_cases hut : u = t
      · subst hut; rw [upd_same] at hu; rw [hq, e1]; exact c1 hu
      · rw [upd_ne _ _ hut] at hu; exact Or.inl hu
    · intro u hu; rw [e5] at hu
      by_cases hut : u = t
      · subst hut; rw [upd_same] at hu; exact Or.inr (c2 hu)
      · rw [upd_ne _ _ hut] at hu; exact Or.inl hu
    · intro u e hu; rw [e5] at hu
      by_cases hut : u = t
      · subst hut; rw [upd_same] at hu; exact absurd hu (c3 e)
      · rw [upd_ne _ _ hut] at hu; exact hu
    · intro u hu; rw [e5]
      by_cases hut : u = t
      · subst hut; rw [upd_same]; rw [hq] at hu; exact c4 hu
      · rw [upd_ne _ _ hut]; exact hu
    · intro u hu; rw [e5]
      by_cases hut : u = t
      · subst hut; rw [upd_same]; rw [hq] at hu; exact c5 hu
      · rw [upd_ne _ _ hut]; exact hu
    · intro i it hi h1 h2; rw [e1]; exact h.pre i it hi (e6 i h1) h2
  cases tr with
  | pre it err hp hd he =>
    have hk : ∀ c, err c = s.error c ∨ (c = it.circ ∧ s.error c = none ∧ ∃ e, it.pre = some e ∧ err c = some e) := by
      intro c; subst he
      cases hpre : it.pre with
      | none => exact Or.inl rfl
      | some e =>
        rcases setError_or s.error it.circ c e with h1 | ⟨h1, h2, h3⟩
        · exact Or.inl h1
        · exact Or.inr ⟨h1, by rw [h1]; exact h2, e, rfl, h3⟩
    refine h.same ?_ ?_ rfl rfl rfl (fun u hu => Or.inl hu) (fun u hu => Or.inl hu) (fun u e hu => hu) (fun u hu => hu) (fun u hu => hu) ?_
    · intro c hc
      rcases hk c with h1 | ⟨_, h2, _⟩
      · exact h1
      · rw [h2] at hc; cases hc
    · intro c e he'
      rcases hk c with h1 | ⟨h1, h2, e', h3, h4⟩
      · exact h.err c e (by rw [← h1]; exact he')
      · simp only at he'; rw [h4] at he'; cases he'
        exact ⟨s.pc, it, hp, h1.symm, Or.inl h3⟩
    · intro i it' hi h1 h2
      simp only at h1 ⊢
      by_cases hpc : i = s.pc
      · subst hpc; rw [hp] at hi; cases hi
        subst he
        cases hpre : it.pre with
        | none => rw [hpre] at h2; cases h2
        | some e => exact setError_same ..
      · have := h.pre i it' hi (Or.inl (by omega)) h2
        rcases hk it'.circ with h3 | ⟨_, _, e', _, h4⟩
        · rw [h3]; exact this
        · rw [h4]; rfl
  | recv it hp hd ht =>
    refine h.same (fun _ _ => rfl) h.err rfl rfl rfl (fun u hu => Or.inl hu) (fun u hu => Or.inl hu) (fun u e hu => hu) (fun u hu => hu) (fun u hu => hu) ?_
    intro i it' hi h1 h2
    refine h.pre i it' hi ?_ h2
    rcases h1 with h1 | ⟨h1, _⟩
    · exact Or.inl h1
    · exact Or.inr ⟨h1, by rw [hd]; simp⟩
  | linkLocked it d ds hp hd hl =>
    refine h.same (fun _ _ => rfl) h.err rfl rfl rfl (fun u hu => Or.inl hu) (fun u hu => Or.inl hu) (fun u e hu => hu) (fun u hu => hu) (fun u hu => hu) ?_
    intro i it' hi h1 h2
    refine h.pre i it' hi ?_ h2
    rcases h1 with h1 | ⟨h1, _⟩
    · exact Or.inl h1
    · exact Or.inr ⟨h1, by rw [hd]; simp⟩
  | link it d ds hp hd hl =>
    refine h.same (fun _ _ => rfl) h.err rfl rfl rfl (fun u hu => Or.inl hu) (fun u hu => Or.inl hu) (fun u e hu => hu) (fun u hu => hu) (fun u hu => hu) ?_
    intro i it' hi h1 h2
    refine h.pre i it' hi ?_ h2
    rcases h1 with h1 | ⟨h1, _⟩
    · exact Or.inl h1
    · exact Or.inr ⟨h1, by rw [hd]; simp⟩
  | count it hp hd =>
    have hpc : (s.phase s.pc).isAbsent = true := (ha.absent s.pc).2 (Or.inr ⟨rfl, by rw [hd]; rfl⟩)
    have hpa : s.phase s.pc = .absent := by
      cases hq : s.phase s.pc <;> rw [hq] at hpc <;> simp [Phase.isAbsent] at hpc <;> rfl
    refine mv (p := .blocked) hpa (by intro h; cases h) (by intro h; cases h) (by simp) (by intro h; cases h) (by intro h; cases h) _ rfl rfl rfl rfl rfl ?_
    intro i h1
    rcases h1 with h1 | ⟨h1, _⟩
    · exact Or.inl h1
    · exact Or.inr ⟨h1, by rw [hd]; simp⟩
  | release it hp hd =>
    have hpc : (s.phase s.pc).isAbsent = false := by
      cases hq : (s.phase s.pc).isAbsent with
      | false => rfl
      | true =>
        rcases (ha.absent s.pc).1 hq with h1 | h1
        · omega
        · rw [hd] at h1; simp [DPhase.linking] at h1
    have hn := ha.num s.pc hpc
    rw [if_pos rfl] at hn
    have hbb := bl hpc (by omega)
    refine mv (t := s.pc) (p := if s.numDeps s.pc = 1 then .ready else .blocked) hbb (by split <;> (intro h; cases h)) (by split <;> (intro h; cases h)) (by split <;> simp)
      (by intro h; cases h) (by intro h; cases h) _ rfl rfl rfl rfl ?_ ?_
    · simp only
      split
      · rfl
      · exact (upd_self _ _ _ hbb).symm
    · intro i h1
      simp only at h1
      rcases h1 with h1 | ⟨_, h1⟩
      · by_cases hi : i = s.pc
        · exact Or.inr ⟨hi, by rw [hd]; simp⟩
        · exact Or.inl (by omega)
      · exact absurd trivial (by simpa using h1)
  | start t it hp hd hw =>
    exact mv (p := .started) hd (by intro h; cases h) (by intro h; cases h) (by simp) (by intro h; cases h) (by intro h; cases h) _ rfl rfl rfl rfl rfl (fun _ h => h)
  | check t it hp hd =>
    refine mv (p := _) hd ?_ ?_ ?_ (by intro h; cases h) (by intro h; cases h) _ rfl rfl rfl rfl rfl (fun _ h => h)
    · intro h1; right; intro it' hp'
      rw [hp] at hp'; cases hp'
      split at h1
      · cases h1
      · rename_i h2; left
        cases hq : s.error it.circ with
        | none => rw [hq] at h2; simp at h2
        | some _ => rfl
    · intro h1 it' hp'
      rw [hp] at hp'; cases hp'
      split at h1
      · rename_i h2
        exact deps_ok wf ha h hp (by rw [hd]; rfl) (by rw [hd]; rfl) (by simpa using h2)
      · cases h1
    · intro e; split <;> simp
  | lock t it hp hd hl =>
    exact mv (p := .notify) hd (fun _ => Or.inl rfl) (by intro h; cases h) (by simp) (fun _ => rfl) (fun _ => rfl) _ rfl rfl rfl rfl rfl (fun _ h => h)
  | notifyDone t it hp hd hw =>
    exact mv (p := .send) hd (fun _ => Or.inl rfl) (by intro h; cases h) (by simp) (fun _ => rfl) (fun _ => rfl) _ rfl rfl rfl rfl rfl (fun _ h => h)
  | send t it hp hd ht =>
    exact mv (p := .retire) hd (fun _ => Or.inl rfl) (by intro h; cases h) (by simp) (fun _ => rfl) (fun _ => rfl) _ rfl rfl rfl rfl rfl (fun _ h => h)
  | retire t it hp hd =>
    exact mv (p := .done) hd (fun _ => Or.inl rfl) (by intro h; cases h) (by simp) (fun _ => rfl) (fun _ => rfl) _ rfl rfl rfl rfl rfl (fun _ h => h)
  | notify t it d ds hp hd hw =>
    obtain ⟨hda, _⟩ := ha.wsub t d (by rw [hw]; exact List.mem_cons_self ..)
    by_cases h1 : s.numDeps d = 1
    · refine mv (t := d) (p := .ready) (bl hda (by omega)) (by intro h; cases h) (by intro h; cases h) (by simp) (by intro h; cases h) (by intro h; cases h) _ rfl rfl rfl rfl ?_ (fun _ h => h)
      simp only [if_pos h1]
    · refine mv (t := t) (p := .notify) hd (fun _ => Or.inl rfl) (by intro h; cases h) (by simp) (fun _ => rfl) (fun _ => rfl) _ rfl rfl rfl rfl ?_ (fun _ h => h)
      simp only [if_neg h1]; exact (upd_self _ _ _ hd).symm
  | fail t it e hp hd =>
    have hf := h.fail t e hd
    refine h.same ?_ ?_ rfl rfl rfl ?_ ?_ ?_ ?_ ?_ ?_
    · intro c hc
      rcases setError_or s.error it.circ c e with h1 | ⟨h1, h2, _⟩
      · exact h1
      · rw [h1, h2] at hc; cases hc
    · intro c e' he'
      rcases setError_or s.error it.circ c e with h1 | ⟨h1, h2, h3⟩
      · exact h.err c e' (by rw [← h1]; exact he')
      · simp only at he'; rw [h3] at he'; cases he'
        exact ⟨t, it, hp, h1.symm, Or.inr hf⟩
    · intro u hu
      by_cases hut : u = t
      · subst hut; right; intro it' hp'; rw [hp] at hp'; cases hp'; left; exact setError_same ..
      · simp only [upd_ne _ _ hut] at hu; exact Or.inl hu
    · intro u hu
      by_cases hut : u = t
      · subst hut; simp only [upd_same] at hu; cases hu
      · simp only [upd_ne _ _ hut] at hu; exact Or.inl hu
    · intro u e' hu
      by_cases hut : u = t
      · subst hut; simp only [upd_same] at hu; cases hu
      · simp only [upd_ne _ _ hut] at hu; exact hu
    · intro u hu
      by_cases hut : u = t
      · subst hut; simp only [upd_same]; rfl
      · simp only [upd_ne _ _ hut]; exact hu
    · intro u hu
      by_cases hut : u = t
      · subst hut; rw [hd] at hu; cases hu
      · simp only [upd_ne _ _ hut]; exact hu
    · intro i it' hi h1 h2
      have := h.pre i it' hi h1 h2
      rcases setError_or s.error it.circ it'.circ e with h3 | ⟨h3, _, h4⟩
      · simp only; rw [h3]; exact this
      · simp only; rw [h4]; rfl
  | execRetire t it hp hd ho =>
    have hr0 := runs_zero ha.runs (t := t) (Or.inl hd)
    have hrs : (seqRun exec cells prog)[t]? = some (.ok none none) := by
      rw [seqAt exec cells wf hp]; unfold seqItem; rw [ho]
    have hok : ∀ u, u ≠ t → OkAt (seqRun exec cells prog) s u → OkAt (seqRun exec cells prog)
        { s with phase := upd s.phase t .lock, runs := upd s.runs t (s.runs t + 1) } u := by
      intro u hu h1; unfold OkAt at *; simp only [upd_ne _ _ hu]; exact h1
    refine ⟨?_, ?_, ?_, h.err, h.pre, ?_, ?_⟩
    · intro u it' hp' hu
      by_cases hut : u = t
      · subst hut; right
        exact ⟨by simp only [upd_same, hr0], none, none, hrs, h.fresh u hr0, by intro c v h; cases h⟩
      · simp only [upd_ne _ _ hut] at hu
        rcases h.past u it' hp' hu with h1 | h1
        · exact Or.inl h1
        · exact Or.inr (hok u hut h1)
    · intro u it' hp' hu x hx
      by_cases hut : u = t
      · subst hut; simp only [upd_same] at hu; cases hu
      · simp only [upd_ne _ _ hut] at hu
        obtain ⟨a, b⟩ := h.exec u it' hp' hu x hx
        have hxt : x.1 ≠ t := by intro h; rw [h, hd] at a; cases a
        exact ⟨by simpa only [upd_ne _ _ hxt] using a, hok _ hxt b⟩
    · intro u e hu
      by_cases hut : u = t
      · subst hut; simp only [upd_same] at hu; cases hu
      · simp only [upd_ne _ _ hut] at hu; exact h.fail u e hu
    · intro c
      rcases h.cell c with h' | ⟨u, it', op, a, b, c', d⟩
      · exact Or.inl h'
      · refine Or.inr ⟨u, it', op, a, b, c', ?_⟩
        by_cases hut : u = t
        · subst hut; simp only [upd_same]; rfl
        · simp only [upd_ne _ _ hut]; exact d
    · intro u hu
      by_cases hut : u = t
      · subst hut; simp only [upd_same] at hu; omega
      · simp only [upd_ne _ _ hut] at hu; exact h.fresh u hu
  | execFail t it op e hp hd ho he =>
    have hrs := seq_exec wf hp ho h hd
    rw [he] at hrs
    have hok : ∀ u, u ≠ t → OkAt (seqRun exec cells prog) s u → OkAt (seqRun exec cells prog)
        { s with phase := upd s.phase t (.fail e), runs := upd s.runs t (s.runs t + 1) } u := by
      intro u hu h1; unfold OkAt at *; simp only [upd_ne _ _ hu]; exact h1
    refine ⟨?_, ?_, ?_, h.err, h.pre, ?_, ?_⟩
    · intro u it' hp' hu
      by_cases hut : u = t
      · subst hut; simp only [upd_same] at hu; cases hu
      · simp only [upd_ne _ _ hut] at hu
        rcases h.past u it' hp' hu with h1 | h1
        · exact Or.inl h1
        · exact Or.inr (hok u hut h1)
    · intro u it' hp' hu x hx
      by_cases hut : u = t
      · subst hut; simp only [upd_same] at hu; cases hu
      · simp only [upd_ne _ _ hut] at hu
        obtain ⟨a, b⟩ := h.exec u it' hp' hu x hx
        have hxt : x.1 ≠ t := by intro h; rw [h, hd] at a; cases a
        exact ⟨by simpa only [upd_ne _ _ hxt] using a, hok _ hxt b⟩
    · intro u e' hu
      by_cases hut : u = t
      · subst hut; simp only [upd_same] at hu; cases hu; exact hrs
      · simp only [upd_ne _ _ hut] at hu; exact h.fail u e' hu
    · intro c
      rcases h.cell c with h' | ⟨u, it', op, a, b, c', d⟩
      · exact Or.inl h'
      · refine Or.inr ⟨u, it', op, a, b, c', ?_⟩
        by_cases hut : u = t
        · subst hut; rw [hd] at d; cases d
        · simp only [upd_ne _ _ hut]; exact d
    · intro u hu
      by_cases hut : u = t
      · subst hut; simp only [upd_same] at hu; omega
      · simp only [upd_ne _ _ hut] at hu; exact h.fresh u hu
  | execOk t it op o w hp hd ho he =>
    have hr0 := runs_zero ha.runs (t := t) (Or.inl hd)
    have hrs := seq_exec wf hp ho h hd
    rw [he] at hrs
    dsimp only at hrs
    have hok : ∀ u it', u ≠ t → prog[u]? = some it' → OkAt (seqRun exec cells prog) s u → OkAt (seqRun exec cells prog)
        { s with
          out := upd s.out t o
          cells := writeCell s.cells w
          phase := upd s.phase t .lock, runs := upd s.runs t (s.runs t + 1) } u := by
      intro u it' hu hpu h1
      obtain ⟨a, o', w', b, c, d⟩ := h1
      refine ⟨by simp only [upd_ne _ _ hu]; exact a, o', w', b, by simp only [upd_ne _ _ hu]; exact c, ?_⟩
      intro c v hw'
      subst hw'
      have hcv := d c v rfl
      cases w with
      | none => exact hcv
      | some cv =>
        obtain ⟨c2, v2⟩ := cv
        simp only [writeCell]
        rw [if_neg]
        · exact hcv
        · rintro rfl
          obtain ⟨op1, h3, h4⟩ := seq_write C wf hpu b
          exact hu (C.one_writer u t it' it op1 op _ hpu hp h3 ho h4 (C.write_ok _ _ _ _ _ _ he))
    refine ⟨?_, ?_, ?_, h.err, h.pre, ?_, ?_⟩
    · intro u it' hp' hu
      by_cases hut : u = t
      · subst hut; right
        refine ⟨by simp only [upd_same, hr0], o, w, hrs, by simp only [upd_same], ?_⟩
        intro c v hw; subst hw; simp [writeCell]
      · simp only [upd_ne _ _ hut] at hu
        rcases h.past u it' hp' hu with h1 | h1
        · exact Or.inl h1
        · exact Or.inr (hok u it' hut hp' h1)
    · intro u it' hp' hu x hx
      by_cases hut : u = t
      · subst hut; simp only [upd_same] at hu; cases hu
      · simp only [upd_ne _ _ hut] at hu
        obtain ⟨a, b⟩ := h.exec u it' hp' hu x hx
        have hxt : x.1 ≠ t := by intro h; rw [h, hd] at a; cases a
        obtain ⟨_, itx, hpx, _⟩ := wf.deps u it' hp' x hx
        exact ⟨by simpa only [upd_ne _ _ hxt] using a, hok _ itx hxt hpx b⟩
    · intro u e' hu
      by_cases hut : u = t
      · subst hut; simp only [upd_same] at hu; cases hu
      · simp only [upd_ne _ _ hut] at hu; exact h.fail u e' hu
    · intro c
      have keep : (s.cells c = cells c ∨ ∃ u it op, prog[u]? = some it ∧ it.op = some op ∧ C.writes op c ∧ (upd s.phase t .lock u).isPast = true) := by
        rcases h.cell c with h' | ⟨u, it', op, a, b, c', d⟩
        · exact Or.inl h'
        · refine Or.inr ⟨u, it', op, a, b, c', ?_⟩
          by_cases hut : u = t
          · subst hut; rw [hd] at d; cases d
          · rw [upd_ne _ _ hut]; exact d
      cases w with
      | none => exact keep
      | some cv =>
        obtain ⟨c2, v2⟩ := cv
        simp only [writeCell]
        by_cases hc : c = c2
        · subst hc
          exact Or.inr ⟨t, it, op, hp, ho, C.write_ok _ _ _ _ _ _ he, by rw [upd_same]; rfl⟩
        · rw [if_neg hc]; exact keep
    · intro u hu
      by_cases hut : u = t
      · subst hut; simp only [upd_same] at hu; omega
      · simp only [upd_ne _ _ hut] at hu ⊢; exact h.fresh u hu

theorem InvD.init {exec : Exec Op Val Err Cell E} {prog : List (Item Op Err E)} {C : Cells exec prog} (F : Nat) (cells : Cell → Val) :
    InvD exec prog C cells (seqRun exec cells prog) (init F cells) := by
  refine ⟨?_, ?_, ?_, ?_, ?_, ?_, ?_⟩
  · intro t it _ h; cases h
  · intro t it _ h; cases h
  · intro t e h; cases h
  · intro c e h; cases h
  · intro i it _ h; simp [Sched.init] at h
  · intro c; exact Or.inl rfl
  · intro t _; rfl

end
end Spf.Sched
