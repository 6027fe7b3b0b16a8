import Verif.Model.Session
import Verif.Proof.MachineTop
/-! A run on a used computer is a run on a fresh one with the instruction numbers shifted. -/
namespace Spf.Machine
open Spf.Cpu (Err)
variable {I V A B : Type} [DecidableEq A]

def shSrc (k : Nat) : Src → Src
  | .init r => .init r
  | .out i j => .out (k + i) j

def shEnt (k : Nat) (e : Entry I A) : Entry I A :=
  { e with srcs := e.srcs.map (shSrc k), dependents := e.dependents.map (k + ·), need := e.need.map (k + ·) }

def shMain (k : Nat) : Main → Main
  | .idle => .idle
  | .dispatching i p => .dispatching (k + i) (p.map (k + ·))
  | .retiring i => .retiring (k + i)

def shFront (k : Nat) : Front → Front
  | .resolve i g => .resolve (k + i) g
  | f => f

def shLabel (k : Nat) : Label → Label
  | .exec i b => .exec (k + i) b
  | .asyncDone i => .asyncDone (k + i)
  | .notify i => .notify (k + i)
  | .retire i => .retire (k + i)
  | l => l

/-- `t` on top of the `k` instructions of `o` -/
def shift (k : Nat) (o t : St I V A B) : St I V A B :=
  { n := k + t.n
    ent := fun j => if j < k then o.ent j else shEnt k (t.ent (j - k))
    vals := fun j => if j < k then o.vals j else t.vals (j - k)
    rename := fun r => shSrc k (t.rename r)
    mem := t.mem
    inflight := fun a => (t.inflight a).map (k + ·)
    fault := t.fault
    pc := t.pc
    ready := t.ready.map fun p => (k + p.1, p.2)
    main := shMain k t.main
    front := shFront k t.front
    inflightCount := t.inflightCount
    gas := t.gas
    lost := t.lost.map (k + ·) }

set_option linter.unusedSectionVars false
variable {k : Nat} {o t : St I V A B}

@[simp] theorem shift_ent (i : Nat) : (shift k o t).ent (k + i) = shEnt k (t.ent i) := by simp [shift, show ¬ k + i < k by omega]
theorem shift_ent_old {i : Nat} (h : i < k) : (shift k o t).ent i = o.ent i := by simp [shift, h]
@[simp] theorem shift_vals (i : Nat) : (shift k o t).vals (k + i) = t.vals i := by simp [shift, show ¬ k + i < k by omega]
theorem shift_val (init : Nat → V) (x : Src) : (shift k o t).val init (shSrc k x) = t.val init x := by
  cases x <;> simp [St.val, shSrc]

@[simp] theorem shEnt_status (e : Entry I A) : (shEnt k e).status = e.status := rfl
@[simp] theorem shEnt_inst (e : Entry I A) : (shEnt k e).inst = e.inst := rfl
@[simp] theorem shEnt_deps (e : Entry I A) : (shEnt k e).deps = e.deps := rfl
@[simp] theorem shEnt_dependents (e : Entry I A) : (shEnt k e).dependents = e.dependents.map (k + ·) := rfl

theorem shift_srcVals (init : Nat → V) (i : Nat) : (shift k o t).srcVals init (k + i) = t.srcVals init i := by
  unfold St.srcVals
  rw [shift_ent]
  show List.map _ (List.map _ _) = _
  rw [List.map_map]
  exact List.map_congr_left fun x _ => shift_val init x

/-- setting an entry commutes with the shift -/
theorem shift_setEnt (f : Nat → Entry I A) (i : Nat) (e : Entry I A) :
    setEnt (fun j => if j < k then o.ent j else shEnt k (f (j - k))) (k + i) (shEnt k e) =
      fun j => if j < k then o.ent j else shEnt k (setEnt f i e (j - k)) := by
  funext j
  unfold setEnt
  by_cases h : j = k + i
  · subst h; simp [show ¬ k + i < k by omega]
  · rw [if_neg h]
    by_cases h2 : j < k
    · simp [h2]
    · dsimp only
      rw [if_neg h2, if_neg h2, if_neg (by omega)]

theorem shift_mk_ent (i : Nat) (e : Entry I A) :
    { shift k o t with ent := setEnt (shift k o t).ent (k + i) (shEnt k e) } = shift k o { t with ent := setEnt t.ent i e } := by
  have := shift_setEnt (k := k) (o := o) t.ent i e
  simp only [shift]
  rw [this]

theorem ent_fun (f : Nat → Entry I A) (i : Nat) (e : Entry I A) {E : Entry I A} (hE : E = shEnt k e) :
    setEnt (fun j => if j < k then o.ent j else shEnt k (f (j - k))) (k + i) E =
      fun j => if j < k then o.ent j else shEnt k (setEnt f i e (j - k)) := by rw [hE, shift_setEnt]

theorem shift_decr (i : Nat) (bg : Bool) : decr (shift k o t) (k + i) bg = shift k o (decr t i bg) := by
  unfold decr
  dsimp only
  simp only [shift_ent, shEnt_deps]
  by_cases h : (t.ent i).deps = 1
  · rw [if_pos h, if_pos h]
    simp only [shift, St.mk.injEq, true_and, and_true, List.map_append, List.map_cons, List.map_nil]
    exact ent_fun t.ent i { t.ent i with deps := (t.ent i).deps - 1 } rfl
  · rw [if_neg h, if_neg h]
    simp only [shift, St.mk.injEq, true_and, and_true]
    exact ent_fun t.ent i { t.ent i with deps := (t.ent i).deps - 1 } rfl

theorem shift_renameAll (ρ : Nat → Src) (i : Nat) : ∀ (ds : List Nat) (j : Nat),
    renameAll (fun r => shSrc k (ρ r)) (k + i) j ds = fun r => shSrc k (renameAll ρ i j ds r)
  | [], _ => rfl
  | d :: ds, j => by
    rw [renameAll, renameAll, ← shift_renameAll]
    congr 1
    funext r
    by_cases h : r = d <;> simp [h, shSrc]

theorem shift_producers (l : List Src) : (l.map (shSrc k)).filterMap Src.producer = (l.filterMap Src.producer).map (k + ·) := by
  induction l with
  | nil => rfl
  | cons x l ih =>
    cases x with
    | init r => rw [List.map_cons, List.filterMap_cons_none rfl, List.filterMap_cons_none rfl]; exact ih
    | out i j => simpa [shSrc, Src.producer] using ih

theorem shift_memDeps (infl : A → Option Nat) (l : List A) :
    memDeps (fun a => (infl a).map (k + ·)) l = (memDeps infl l).map (k + ·) := by
  unfold memDeps
  induction l with
  | nil => rfl
  | cons a l ih => cases h : infl a <;> simp [h, ih]

theorem shift_fetch (isa : Isa I V A B) (prog : Nat → Except Err I) (init : Nat → V) (limit : Option Nat) :
    fetchStep isa prog init limit (shift k o t) = shift k o (fetchStep isa prog init limit t) := by
  unfold fetchStep
  have hf : (shift k o t).fault = t.fault := rfl
  have hpc : (shift k o t).pc = t.pc := rfl
  rw [hf, hpc]
  cases hfa : t.fault with
  | some e => rfl
  | none =>
    dsimp only
    cases hp : prog t.pc with
    | error e => simp [St.stop, shift, shFront]
    | ok inst =>
      dsimp only
      have hr : (isa.srcs inst).map (shift k o t).rename = ((isa.srcs inst).map t.rename).map (shSrc k) := by
        rw [List.map_map]; rfl
      have hv : ((isa.srcs inst).map (shift k o t).rename).map ((shift k o t).val init) =
          ((isa.srcs inst).map t.rename).map (t.val init) := by
        rw [hr, List.map_map]
        exact List.map_congr_left fun x _ => shift_val init x
      rw [hv]
      by_cases hl : limit.any (isa.gas inst (((isa.srcs inst).map t.rename).map (t.val init)) > ·) = true
      · rw [if_pos hl, if_pos hl]; simp [St.stop, shift, shFront]
      · rw [if_neg hl, if_neg hl, hr]
        have hn : (shift k o t).n = k + t.n := rfl
        cases ha : isa.access inst (((isa.srcs inst).map t.rename).map (t.val init)) with
        | error e =>
          dsimp only [St.stop]
          rw [hn, shift_producers]
          have he : (⟨inst, ((isa.srcs inst).map t.rename).map (shSrc k), 1, [], .waiting,
              (((isa.srcs inst).map t.rename).filterMap Src.producer).map (k + ·), []⟩ : Entry I A) =
              shEnt k ⟨inst, (isa.srcs inst).map t.rename, 1, [], .waiting, ((isa.srcs inst).map t.rename).filterMap Src.producer, []⟩ := rfl
          rw [he]
          have h1 : setEnt (shift k o t).ent (k + t.n) _ = _ := shift_setEnt (k := k) (o := o) t.ent t.n
            ⟨inst, (isa.srcs inst).map t.rename, 1, [], .waiting, ((isa.srcs inst).map t.rename).filterMap Src.producer, []⟩
          rw [h1]
          have h2 : renameAll (shift k o t).rename (k + t.n) 0 (isa.dsts inst) = _ := shift_renameAll t.rename t.n (isa.dsts inst) 0
          rw [h2]
          simp only [shift, shFront, Option.map_some, Nat.add_assoc]
        | ok addrs =>
          dsimp only
          have h3 : memDeps (shift k o t).inflight addrs = _ := shift_memDeps t.inflight addrs
          rw [hn, shift_producers, h3, ← List.map_append]
          have he : (⟨inst, ((isa.srcs inst).map t.rename).map (shSrc k), 1, [], .waiting,
              (((isa.srcs inst).map t.rename).filterMap Src.producer ++ memDeps t.inflight addrs).map (k + ·), addrs⟩ : Entry I A) =
              shEnt k ⟨inst, (isa.srcs inst).map t.rename, 1, [], .waiting,
                ((isa.srcs inst).map t.rename).filterMap Src.producer ++ memDeps t.inflight addrs, addrs⟩ := rfl
          rw [he]
          have h1 : setEnt (shift k o t).ent (k + t.n) _ = _ := shift_setEnt (k := k) (o := o) t.ent t.n
            ⟨inst, (isa.srcs inst).map t.rename, 1, [], .waiting,
                ((isa.srcs inst).map t.rename).filterMap Src.producer ++ memDeps t.inflight addrs, addrs⟩
          rw [h1]
          have h2 : renameAll (shift k o t).rename (k + t.n) 0 (isa.dsts inst) = _ := shift_renameAll t.rename t.n (isa.dsts inst) 0
          rw [h2]
          have h4 : markInflight (shift k o t).inflight addrs (k + t.n) = fun a => (markInflight t.inflight addrs t.n a).map (k + ·) := by
            funext a
            simp only [markInflight, shift]
            split <;> rfl
          rw [h4]
          simp only [shift, shFront, shMain, Nat.add_assoc]

theorem shift_dep (i d : Nat) (ds : List Nat) :
    depStep (shift k o t) (k + i) (k + d) (ds.map (k + ·)) = shift k o (depStep t i d ds) := by
  unfold depStep
  dsimp only
  simp only [shift_ent, shEnt_status]
  by_cases h : (t.ent d).status = .waiting ∨ (t.ent d).status = .running
  · rw [if_pos h, if_pos h]
    simp only [shift, St.mk.injEq, true_and, and_true, shMain]
    have h1 : setEnt (fun j => if j < k then o.ent j else shEnt k (t.ent (j - k))) (k + d)
        { shEnt k (t.ent d) with dependents := (k + i) :: (shEnt k (t.ent d)).dependents } = _ :=
      ent_fun t.ent d { t.ent d with dependents := i :: (t.ent d).dependents } (by simp [shEnt])
    refine (congrArg (fun f : Nat → Entry I A => setEnt f (k + i) { f (k + i) with deps := (f (k + i)).deps + 1 }) h1).trans ?_
    refine ent_fun _ i _ ?_
    simp only [show ¬ k + i < k by omega, if_false, Nat.add_sub_cancel_left]
    rfl
  · rw [if_neg h, if_neg h]
    rfl

theorem shift_erase (i : Nat) (bg : Bool) (l : List (Nat × Bool)) :
    (l.map fun p => (k + p.1, p.2)).erase (k + i, bg) = (l.erase (i, bg)).map fun p => (k + p.1, p.2) := by
  have : Function.Injective (fun p : Nat × Bool => (k + p.1, p.2)) := by
    rintro ⟨a, b⟩ ⟨c, d⟩ h; simp at h; exact Prod.ext h.1 h.2
  exact (List.map_erase this (l := l) (a := (i, bg))).symm

theorem exec_eq (isa : Isa I V A B) (init : Nat → V) (s : St I V A B) (i : Nat) (bg : Bool) :
    execStep isa init s i bg =
      match s.fault with
      | some _ => { s with ready := s.ready.erase (i, bg), ent := setEnt s.ent i { s.ent i with status := .retiring }, main := .retiring i }
      | none =>
        match isa.exec (s.ent i).inst (s.srcVals init i) s.mem with
        | .error x => { s with ready := s.ready.erase (i, bg), ent := setEnt s.ent i { s.ent i with status := .retiring },
                               main := .retiring i, fault := setFault s.fault x }
        | .ok (outs, mem') =>
          if isa.async (s.ent i).inst (s.srcVals init i) then
            { s with ready := s.ready.erase (i, bg), vals := writeOuts s.vals isa.dflt i outs, mem := mem',
                     ent := setEnt s.ent i { s.ent i with status := .running } }
          else { s with ready := s.ready.erase (i, bg), vals := writeOuts s.vals isa.dflt i outs, mem := mem',
                        ent := setEnt s.ent i { s.ent i with status := .retiring }, main := .retiring i } := rfl

theorem shift_exec (isa : Isa I V A B) (init : Nat → V) (i : Nat) (bg : Bool) :
    execStep isa init (shift k o t) (k + i) bg = shift k o (execStep isa init t i bg) := by
  rw [exec_eq, exec_eq]
  have hf : (shift k o t).fault = t.fault := rfl
  have hm : (shift k o t).mem = t.mem := rfl
  have hrd : (shift k o t).ready.erase (k + i, bg) = (t.ready.erase (i, bg)).map fun p => (k + p.1, p.2) := shift_erase i bg t.ready
  have hent : ∀ st : Status, setEnt (shift k o t).ent (k + i) { shEnt k (t.ent i) with status := st } = _ :=
    fun st => ent_fun t.ent i { t.ent i with status := st } rfl
  rw [hf, hm, shift_srcVals, shift_ent, shEnt_inst, hrd]
  cases hfa : t.fault with
  | some e =>
    dsimp only
    rw [hent]
    simp only [shift, hfa, shMain]
  | none =>
    dsimp only
    cases hx : isa.exec (t.ent i).inst (t.srcVals init i) t.mem with
    | error x =>
      dsimp only
      rw [hent]
      simp only [shift, shMain]
    | ok r =>
      obtain ⟨outs, mem'⟩ := r
      dsimp only
      have hw : writeOuts (shift k o t).vals isa.dflt (k + i) outs =
          fun j => if j < k then o.vals j else writeOuts t.vals isa.dflt i outs (j - k) := by
        funext j x
        unfold writeOuts shift
        dsimp only
        by_cases h : j = k + i
        · subst h; simp [show ¬ k + i < k by omega]
        · by_cases h2 : j < k
          · simp [h, h2]
          · rw [if_neg h, if_neg h2, if_neg h2, if_neg (by omega)]
      rw [hw]
      cases ha : isa.async (t.ent i).inst (t.srcVals init i) with
      | true =>
        simp only [if_true]
        rw [hent]
        simp only [shift]
      | false =>
        simp only [Bool.false_eq_true, if_false]
        rw [hent]
        simp only [shift, shMain]

theorem shMain_retiring (m : Main) (i : Nat) : shMain k m = .retiring (k + i) ↔ m = .retiring i := by
  cases m <;> simp [shMain]

theorem shift_notify (i : Nat) : notifyStep (shift k o t) (k + i) = shift k o (notifyStep t i) := by
  unfold notifyStep
  simp only [shift_ent, shEnt_dependents]
  cases hd : (t.ent i).dependents with
  | nil => rfl
  | cons d ds =>
    simp only [List.map_cons]
    have h1 : ({ shift k o t with ent := setEnt (shift k o t).ent (k + i) { shEnt k (t.ent i) with dependents := ds.map (k + ·) } } : St I V A B) =
        shift k o { t with ent := setEnt t.ent i { t.ent i with dependents := ds } } := by
      simp only [shift, St.mk.injEq, true_and, and_true]
      exact ent_fun t.ent i { t.ent i with dependents := ds } rfl
    rw [h1, shift_decr]
    have h2 : decide ((shift k o t).main ≠ .retiring (k + i)) = decide (t.main ≠ .retiring i) := by
      apply decide_eq_decide.2
      exact not_congr (shMain_retiring t.main i)
    rw [h2]

theorem shift_retire (i : Nat) : retireStep (shift k o t) (k + i) = shift k o (retireStep t i) := by
  have hent : setEnt (shift k o t).ent (k + i) { shEnt k (t.ent i) with status := .retired } = _ :=
    ent_fun t.ent i { t.ent i with status := .retired } rfl
  have hm : (shift k o t).main = .retiring (k + i) ↔ t.main = .retiring i := shMain_retiring _ _
  unfold retireStep
  rw [shift_ent, hent]
  by_cases h : t.main = .retiring i
  · rw [if_pos h, if_pos (hm.2 h)]
    simp only [shift, shMain]
  · rw [if_neg h, if_neg (fun h' => h (hm.1 h'))]
    simp only [shift]

theorem shift_resolve (isa : Isa I V A B) (init : Nat → V) (i g : Nat) :
    resolveStep isa init (shift k o t) (k + i) g = shift k o (resolveStep isa init t i g) := by
  unfold resolveStep
  rw [shift_ent, shift_srcVals]
  have hpc : (shift k o t).pc = t.pc := rfl
  rw [shEnt_inst, hpc]
  cases isa.next (t.ent i).inst t.pc (t.srcVals init i) with
  | ok pc => rfl
  | error e => cases e <;> rfl

/-- **A step of the shifted state is a step of the state.** -/
theorem shift_step (isa : Isa I V A B) (prog : Nat → Except Err I) (init : Nat → V) (limit : Option Nat) (l : Label) :
    step isa prog init limit (shift k o t) (shLabel k l) = (step isa prog init limit t l).map (shift k o) := by
  have hidle : (shift k o t).main = .idle ↔ t.main = .idle := by
    show shMain k t.main = .idle ↔ _
    cases t.main <;> simp [shMain]
  cases l with
  | fetch =>
    have hfr : (shift k o t).front = .fetch ↔ t.front = .fetch := by
      show shFront k t.front = .fetch ↔ _
      cases t.front <;> simp [shFront]
    simp only [step, shLabel, hidle, hfr]
    by_cases h : t.main = .idle ∧ t.front = .fetch
    · rw [if_pos h, if_pos h, shift_fetch]; rfl
    · rw [if_neg h, if_neg h]; rfl
  | dep =>
    simp only [step, shLabel]
    have : (shift k o t).main = shMain k t.main := rfl
    rw [this]
    cases hm : t.main with
    | idle => rfl
    | retiring i => rfl
    | dispatching i p =>
      cases p with
      | nil => rfl
      | cons d ds => simp only [shMain, List.map_cons, Option.map_some, shift_dep]
  | dispatched =>
    simp only [step, shLabel]
    have : (shift k o t).main = shMain k t.main := rfl
    rw [this]
    cases hm : t.main with
    | idle => rfl
    | retiring i => rfl
    | dispatching i p =>
      cases p with
      | cons d ds => rfl
      | nil =>
        simp only [shMain, List.map_nil, Option.map_some]
        have h1 : ({ shift k o t with main := .idle } : St I V A B) = shift k o { t with main := .idle } := rfl
        rw [h1, shift_decr]
  | resolve =>
    simp only [step, shLabel]
    have hfr : (shift k o t).front = shFront k t.front := rfl
    have hdr : drained (shift k o t) = drained t := by
      show List.all (List.map _ t.ready) _ = List.all t.ready _
      rw [List.all_map]; rfl
    rw [hfr]
    cases hf : t.front with
    | fetch => rfl
    | stopped => rfl
    | resolve i g =>
      simp only [shFront, hidle, hdr]
      by_cases h : t.main = .idle ∧ drained t = true
      · rw [if_pos h, if_pos h, shift_resolve]; rfl
      · rw [if_neg h, if_neg h]; rfl
  | exec i bg =>
    have hmem : (k + i, bg) ∈ (shift k o t).ready ↔ (i, bg) ∈ t.ready := by
      show (k + i, bg) ∈ List.map _ _ ↔ _
      rw [List.mem_map]
      constructor
      · rintro ⟨⟨a, b⟩, h1, h2⟩
        simp only [Prod.mk.injEq] at h2
        obtain ⟨h2, h3⟩ := h2
        rw [show i = a by omega, ← h3]; exact h1
      · intro h; exact ⟨_, h, rfl⟩
    simp only [step, shLabel, hidle, hmem]
    by_cases h : t.main = .idle ∧ (i, bg) ∈ t.ready
    · rw [if_pos h, if_pos h, shift_exec]; rfl
    · rw [if_neg h, if_neg h]; rfl
  | asyncDone i =>
    have hn : k + i < (shift k o t).n ↔ i < t.n := by show k + i < k + t.n ↔ _; omega
    simp only [step, shLabel, hn, shift_ent, shEnt_status]
    by_cases h : i < t.n ∧ (t.ent i).status = .running
    · rw [if_pos h, if_pos h]
      simp only [Option.map_some, Option.some.injEq]
      simp only [shift, St.mk.injEq, true_and, and_true]
      exact ent_fun t.ent i { t.ent i with status := .retiring } rfl
    · rw [if_neg h, if_neg h]; rfl
  | notify i =>
    have hn : k + i < (shift k o t).n ↔ i < t.n := by show k + i < k + t.n ↔ _; omega
    simp only [step, shLabel, hn, shift_ent, shEnt_status, shEnt_dependents, ne_eq, List.map_eq_nil_iff]
    by_cases h : i < t.n ∧ (t.ent i).status = .retiring ∧ ¬ (t.ent i).dependents = []
    · rw [if_pos h, if_pos h, shift_notify]; rfl
    · rw [if_neg h, if_neg h]; rfl
  | retire i =>
    have hn : k + i < (shift k o t).n ↔ i < t.n := by show k + i < k + t.n ↔ _; omega
    simp only [step, shLabel, hn, shift_ent, shEnt_status, shEnt_dependents, List.map_eq_nil_iff]
    by_cases h : i < t.n ∧ (t.ent i).status = .retiring ∧ (t.ent i).dependents = []
    · rw [if_pos h, if_pos h, shift_retire]; rfl
    · rw [if_neg h, if_neg h]; rfl

/-- No step of the shifted state concerns an old instruction. -/
theorem shift_only (isa : Isa I V A B) (prog : Nat → Except Err I) (init : Nat → V) (limit : Option Nat)
    (hold : ∀ i, i < k → (o.ent i).status = .retired) {l : Label} {s'} (h : step isa prog init limit (shift k o t) l = some s') :
    ∃ l', l = shLabel k l' := by
  have old : ∀ i, ¬ (i < k) → ∃ j, i = k + j := fun i hi => ⟨i - k, by omega⟩
  have ne : ∀ i st, st ≠ Status.retired → ((shift k o t).ent i).status = st → ¬ i < k := by
    intro i st hst h1 h2
    rw [shift_ent_old h2, hold i h2] at h1
    exact hst h1.symm
  cases l with
  | fetch => exact ⟨.fetch, rfl⟩
  | dep => exact ⟨.dep, rfl⟩
  | dispatched => exact ⟨.dispatched, rfl⟩
  | resolve => exact ⟨.resolve, rfl⟩
  | exec i bg =>
    simp only [step] at h
    split at h
    · rename_i hc
      have : (i, bg) ∈ List.map _ _ := hc.2
      rw [List.mem_map] at this
      obtain ⟨p, _, hp⟩ := this
      exact ⟨.exec p.1 p.2, by rw [shLabel]; cases hp; rfl⟩
    · cases h
  | asyncDone i =>
    simp only [step] at h
    split at h
    · rename_i hc
      obtain ⟨j, rfl⟩ := old i (ne i _ (by decide) hc.2)
      exact ⟨.asyncDone j, rfl⟩
    · cases h
  | notify i =>
    simp only [step] at h
    split at h
    · rename_i hc
      obtain ⟨j, rfl⟩ := old i (ne i _ (by decide) hc.2.1)
      exact ⟨.notify j, rfl⟩
    · cases h
  | retire i =>
    simp only [step] at h
    split at h
    · rename_i hc
      obtain ⟨j, rfl⟩ := old i (ne i _ (by decide) hc.2.1)
      exact ⟨.retire j, rfl⟩
    · cases h

theorem shift_run (isa : Isa I V A B) (prog : Nat → Except Err I) (init : Nat → V) (limit : Option Nat) : ∀ (ls : List Label) (t : St I V A B),
    run isa prog init limit (shift k o t) (ls.map (shLabel k)) = (run isa prog init limit t ls).map (shift k o)
  | [], _ => rfl
  | l :: ls, t => by
    simp only [List.map_cons, run, shift_step]
    cases step isa prog init limit t l with
    | none => rfl
    | some t' => exact shift_run isa prog init limit ls t'

theorem shift_run_inv (isa : Isa I V A B) (prog : Nat → Except Err I) (init : Nat → V) (limit : Option Nat)
    (hold : ∀ i, i < k → (o.ent i).status = .retired) : ∀ (ls : List Label) (t s' : St I V A B),
    run isa prog init limit (shift k o t) ls = some s' →
    ∃ ls' t', ls = ls'.map (shLabel k) ∧ run isa prog init limit t ls' = some t' ∧ s' = shift k o t'
  | [], t, s', h => by cases h; exact ⟨[], t, rfl, rfl, rfl⟩
  | l :: ls, t, s', h => by
    rw [run] at h
    cases hs : step isa prog init limit (shift k o t) l with
    | none => rw [hs] at h; cases h
    | some s1 =>
      rw [hs] at h
      obtain ⟨l', rfl⟩ := shift_only isa prog init limit hold hs
      rw [shift_step, Option.map_eq_some_iff] at hs
      obtain ⟨t1, h1, rfl⟩ := hs
      obtain ⟨ls', t', h2, h3, h4⟩ := shift_run_inv isa prog init limit hold ls t1 s' h
      refine ⟨l' :: ls', t', by rw [h2]; rfl, ?_, h4⟩
      rw [run, h1]; exact h3

/-! ### between two runs -/

/-- nothing was written beyond the instructions dispatched so far -/
def Blank (isa : Isa I V A B) (e0 : Entry I A) (s : St I V A B) : Prop :=
  ∀ i, s.n ≤ i → s.ent i = e0 ∧ ∀ x, s.vals i x = isa.dflt

theorem blank_of {isa : Isa I V A B} {e0 : Entry I A} {s s' : St I V A B} (h : Blank isa e0 s) (hn : s.n ≤ s'.n)
    (hent : ∀ i, s'.n ≤ i → s'.ent i = s.ent i) (hv : ∀ i, s'.n ≤ i → s'.vals i = s.vals i) : Blank isa e0 s' := by
  intro i hi
  rw [hent i hi, hv i hi]
  exact h i (by omega)

theorem decr_blank {isa : Isa I V A B} {e0 : Entry I A} {s : St I V A B} (h : Blank isa e0 s) {i : Nat} (hi : i < s.n) (bg : Bool) :
    Blank isa e0 (decr s i bg) := by
  have hn : (decr s i bg).n = s.n := by unfold decr; dsimp only; split <;> rfl
  refine blank_of h (by omega) (fun j hj => ?_) (fun j hj => ?_)
  · have : (decr s i bg).ent = setEnt s.ent i { s.ent i with deps := (s.ent i).deps - 1 } := by
      unfold decr; dsimp only; split <;> rfl
    rw [this, setEnt_ne]
    omega
  · have : (decr s i bg).vals = s.vals := by unfold decr; dsimp only; split <;> rfl
    rw [this]

theorem blank_step (isa : Isa I V A B) (prog : Nat → Except Err I) (init : Nat → V) (limit : Option Nat) {e0 : Entry I A}
    {s s' : St I V A B} (hw : WF s) (h : Blank isa e0 s) (l : Label) (hs : step isa prog init limit s l = some s') :
    Blank isa e0 s' := by
  cases l with
  | fetch =>
    simp only [step] at hs
    split at hs
    · injection hs with hs; subst hs
      unfold fetchStep
      split
      · exact h
      · split
        · exact h
        · dsimp only
          split
          · exact h
          · split
            · refine blank_of h (by simp [St.stop]) (fun i hi => ?_) (fun i hi => rfl)
              have : s.n + 1 ≤ i := hi
              exact setEnt_ne _ _ (by omega)
            · refine blank_of h (by simp) (fun i hi => ?_) (fun i hi => rfl)
              have : s.n + 1 ≤ i := hi
              exact setEnt_ne _ _ (by omega)
    · cases hs
  | dep =>
    simp only [step] at hs
    split at hs
    · rename_i i d ds hm
      injection hs with hs; subst hs
      have hi := (hw.mainD i _ hm)
      have hd : d < i := hw.needLt i (by omega) d (hi.2.1 d List.mem_cons_self)
      unfold depStep
      dsimp only
      split
      · refine blank_of h (by simp) (fun j hj => ?_) (fun j hj => rfl)
        have hj : s.n ≤ j := hj
        dsimp only
        rw [setEnt_ne _ _ (by omega), setEnt_ne _ _ (by omega)]
      · exact h
    · cases hs
  | dispatched =>
    simp only [step] at hs
    split at hs
    · rename_i i hm
      injection hs with hs; subst hs
      have hi := (hw.mainD i _ hm).1
      exact decr_blank (s := { s with main := .idle }) h (show i < s.n by omega) false
    · cases hs
  | resolve =>
    simp only [step] at hs
    split at hs
    · split at hs
      · injection hs with hs; subst hs
        unfold resolveStep
        split <;> exact h
      · cases hs
    · cases hs
  | exec i bg =>
    simp only [step] at hs
    split at hs
    · rename_i hc
      injection hs with hs; subst hs
      have hi : i < s.n := ((hw.readyIff i).1 (List.mem_map.2 ⟨_, hc.2, rfl⟩)).1
      rw [exec_eq]
      split
      · exact blank_of h (Nat.le_refl _) (fun j hj => setEnt_ne _ _ (by have : s.n ≤ j := hj; omega)) (fun _ _ => rfl)
      · split
        · exact blank_of h (Nat.le_refl _) (fun j hj => setEnt_ne _ _ (by have : s.n ≤ j := hj; omega)) (fun _ _ => rfl)
        · split
          · refine blank_of h (Nat.le_refl _) (fun j hj => setEnt_ne _ _ (by have : s.n ≤ j := hj; omega)) (fun j hj => ?_)
            have : s.n ≤ j := hj
            funext x
            simp only [writeOuts]
            rw [if_neg (by omega)]
          · refine blank_of h (Nat.le_refl _) (fun j hj => setEnt_ne _ _ (by have : s.n ≤ j := hj; omega)) (fun j hj => ?_)
            have : s.n ≤ j := hj
            funext x
            simp only [writeOuts]
            rw [if_neg (by omega)]
    · cases hs
  | asyncDone i =>
    simp only [step] at hs
    split at hs
    · rename_i hc
      injection hs with hs; subst hs
      exact blank_of h (Nat.le_refl _) (fun j hj => setEnt_ne _ _ (by have : s.n ≤ j := hj; omega)) (fun _ _ => rfl)
    · cases hs
  | notify i =>
    simp only [step] at hs
    split at hs
    · rename_i hc
      injection hs with hs; subst hs
      unfold notifyStep
      split
      · exact h
      · rename_i d ds hd
        have hdn : d < s.n := (hw.dep i hc.1 d (by rw [hd]; exact List.mem_cons_self)).1
        refine decr_blank (s := { s with ent := setEnt s.ent i { s.ent i with dependents := ds } }) ?_ hdn _
        exact blank_of h (Nat.le_refl _) (fun j hj => setEnt_ne _ _ (by have : s.n ≤ j := hj; omega)) (fun _ _ => rfl)
    · cases hs
  | retire i =>
    simp only [step] at hs
    split at hs
    · rename_i hc
      injection hs with hs; subst hs
      exact blank_of h (Nat.le_refl _) (fun j hj => setEnt_ne _ _ (by have : s.n ≤ j := hj; omega)) (fun _ _ => rfl)
    · cases hs

theorem blank_run (isa : Isa I V A B) (prog : Nat → Except Err I) (init : Nat → V) (limit : Option Nat) {e0 : Entry I A} :
    ∀ (ls : List Label) {s s' : St I V A B}, WF s → Blank isa e0 s → run isa prog init limit s ls = some s' → Blank isa e0 s'
  | [], s, s', _, h, hr => by cases hr; exact h
  | l :: ls, s, s', hw, h, hr => by
    rw [run] at hr
    cases hs : step isa prog init limit s l with
    | none => rw [hs] at hr; cases hr
    | some s1 =>
      rw [hs] at hr
      exact blank_run isa prog init limit ls (wf_step isa prog init limit hw l hs) (blank_step isa prog init limit hw h l hs) hr

/-- What a finished run leaves behind. -/
structure Quiet (isa : Isa I V A B) (e0 : Entry I A) (s : St I V A B) : Prop where
  ready : s.ready = []
  main : s.main = .idle
  front : s.front = .stopped
  count : s.inflightCount = 0
  lost : s.lost = none
  retired : ∀ i, i < s.n → (s.ent i).status = .retired
  blank : Blank isa e0 s

theorem quiet_of_done {isa : Isa I V A B} {e0 : Entry I A} {s : St I V A B} (hw : WF s) (hb : Blank isa e0 s) (hd : s.done) :
    Quiet isa e0 s := by
  have hr : ∀ i, i < s.n → (s.ent i).status = .retired := fun i hi => done_retired hw hd.2 i hi
  refine ⟨?_, ?_, hd.1, hd.2, ?_, hr, hb⟩
  · rw [List.eq_nil_iff_forall_not_mem]
    intro p hp
    have := (hw.readyIff p.1).1 (List.mem_map.2 ⟨p, hp, rfl⟩)
    rw [hr _ this.1] at this
    exact absurd this.2.1 (by decide)
  · cases hm : s.main with
    | idle => rfl
    | dispatching i p =>
      have := hw.mainD i p hm
      rw [hr i (by omega)] at this
      exact absurd this.2.2.1 (by decide)
    | retiring i =>
      have := hw.mainR i hm
      rw [hr i this.1] at this
      exact absurd this.2 (by decide)
  · cases hl : s.lost with
    | none => rfl
    | some i =>
      have := hw.lostW i hl
      rw [hr i this.1] at this
      exact absurd this.2.1 (by decide)

theorem quiet_shift {isa : Isa I V A B} {e0 : Entry I A} (he : shEnt k e0 = e0) (ht : Quiet isa e0 t)
    (ho : ∀ i, i < k → (o.ent i).status = .retired) : Quiet isa e0 (shift k o t) := by
  refine ⟨?_, ?_, ?_, ht.count, ?_, ?_, ?_⟩
  · simp [shift, ht.ready]
  · simp [shift, ht.main, shMain]
  · simp [shift, ht.front, shFront]
  · simp [shift, ht.lost]
  · intro i hi
    have hi : i < k + t.n := hi
    by_cases h : i < k
    · rw [shift_ent_old h]; exact ho i h
    · rw [show i = k + (i - k) by omega, shift_ent, shEnt_status]; exact ht.retired _ (by omega)
  · intro i hi
    have hi : k + t.n ≤ i := hi
    rw [show i = k + (i - k) by omega, shift_ent, shift_vals]
    obtain ⟨h1, h2⟩ := ht.blank (i - k) (by omega)
    rw [h1, he]; exact ⟨rfl, h2⟩

/-- **A run on a used computer starts like a run on a fresh one.** -/
theorem restart_eq {isa : Isa I V A B} {e0 : Entry I A} {s : St I V A B} (he : shEnt s.n e0 = e0) (h : Quiet isa e0 s) (mem : A → B) (pc : Nat) :
    restart s mem pc = shift s.n s (start isa mem pc e0) := by
  unfold restart shift start
  simp only [St.mk.injEq, true_and, and_true, Nat.add_zero, Option.map_none, List.map_nil, h.ready, h.main, h.count, h.lost]
  refine ⟨?_, ?_, ?_, rfl, rfl⟩
  · funext j
    by_cases hj : j < s.n
    · rw [if_pos hj]
    · rw [if_neg hj, he]; exact (h.blank j (by omega)).1
  · funext j x
    by_cases hj : j < s.n
    · rw [if_pos hj]
    · rw [if_neg hj]; exact (h.blank j (by omega)).2 x
  · rfl

end Spf.Machine
