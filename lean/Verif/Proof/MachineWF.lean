import Verif.Model.Machine
import Mathlib.Data.List.Nodup
/-! Structural invariant of the out-of-order machine: dependency counts, ready queue, statuses. -/
namespace Spf.Machine
open Spf.Cpu (Err)

/-! ### sums -/

def sumTo (f : Nat → Nat) : Nat → Nat
  | 0 => 0
  | n + 1 => sumTo f n + f n

theorem sumTo_congr {f g : Nat → Nat} (n : Nat) (h : ∀ i, i < n → f i = g i) : sumTo f n = sumTo g n := by
  induction n with
  | zero => rfl
  | succ n ih => simp only [sumTo]; rw [ih (fun i hi => h i (by omega)), h n (by omega)]

theorem sumTo_update {f g : Nat → Nat} (n d : Nat) (hd : d < n) (h : ∀ i, i < n → i ≠ d → f i = g i) :
    sumTo f n + g d = sumTo g n + f d := by
  induction n with
  | zero => omega
  | succ n ih =>
    simp only [sumTo]
    by_cases hn : d = n
    · subst hn; rw [sumTo_congr d (fun i hi => h i (by omega) (by omega))]; omega
    · have := ih (by omega) (fun i hi hne => h i (by omega) hne)
      rw [h n (by omega) (fun hh => hn hh.symm)]; omega

theorem le_sumTo (f : Nat → Nat) (n d : Nat) (hd : d < n) : f d ≤ sumTo f n := by
  induction n with
  | zero => omega
  | succ n ih =>
    simp only [sumTo]
    by_cases hn : d = n
    · subst hn; omega
    · have := ih (by omega); omega

theorem sumTo_pos {f : Nat → Nat} (n : Nat) (h : 0 < sumTo f n) : ∃ d, d < n ∧ 0 < f d := by
  induction n with
  | zero => simp [sumTo] at h
  | succ n ih =>
    simp only [sumTo] at h
    by_cases hn : 0 < f n
    · exact ⟨n, by omega, hn⟩
    · obtain ⟨d, hd, hp⟩ := ih (by omega); exact ⟨d, by omega, hp⟩

theorem sumTo_zero {f : Nat → Nat} (n : Nat) (h : ∀ i, i < n → f i = 0) : sumTo f n = 0 := by
  rw [sumTo_congr (g := fun _ => 0) n h]; clear h
  induction n with
  | zero => rfl
  | succ n ih => simp [sumTo, ih]

variable {I V A B : Type} [DecidableEq A]

@[simp] theorem setEnt_same (f : Nat → Entry I A) (i : Nat) (e : Entry I A) : setEnt f i e i = e := by simp [setEnt]
theorem setEnt_ne (f : Nat → Entry I A) {i j : Nat} (e : Entry I A) (h : j ≠ i) : setEnt f i e j = f j := by simp [setEnt, h]

/-- 1 when the main thread is still dispatching `i` -/
def Main.disp : Main → Nat → Nat
  | .dispatching i _, j => if i = j then 1 else 0
  | _, _ => 0

def lostTok (l : Option Nat) (i : Nat) : Nat := if l = some i then 1 else 0

def tokens (s : St I V A B) (i : Nat) : Nat :=
  sumTo (fun d => (s.ent d).dependents.count i) s.n + s.main.disp i + lostTok s.lost i

def unret (e : Entry I A) : Nat := if e.status = .retired then 0 else 1

def Waits (s : St I V A B) (i d : Nat) : Prop :=
  i ∈ (s.ent d).dependents ∨ (∃ p, s.main = .dispatching i p ∧ d ∈ p) ∨ s.lost = some i ∨
    (s.ent d).status = .retiring ∨ (s.ent d).status = .retired

/-- The structural invariant; `x` is an instruction that still has to be decremented. -/
structure WF' (s : St I V A B) (x : Option Nat) : Prop where
  mainD : ∀ i p, s.main = .dispatching i p → i + 1 = s.n ∧ (∀ d ∈ p, d ∈ (s.ent i).need) ∧ (s.ent i).status = .waiting ∧
    s.lost = none ∧ ∃ g, s.front = .resolve i g
  mainR : ∀ i, s.main = .retiring i → i < s.n ∧ (s.ent i).status = .retiring
  dep : ∀ d, d < s.n → ∀ i ∈ (s.ent d).dependents, i < s.n ∧ (s.ent i).status = .waiting ∧ d ∈ (s.ent i).need ∧
    (s.ent d).status ≠ .retired
  needLt : ∀ i, i < s.n → ∀ d ∈ (s.ent i).need, d < i
  needOk : ∀ i, i < s.n → ∀ d ∈ (s.ent i).need, Waits s i d
  deps : ∀ i, i < s.n → (s.ent i).deps = tokens s i + lostTok x i
  readyNodup : (s.ready.map Prod.fst).Nodup
  readyIff : ∀ i, i ∈ s.ready.map Prod.fst ↔ (i < s.n ∧ (s.ent i).status = .waiting ∧ (s.ent i).deps = 0)
  count : s.inflightCount = sumTo (fun i => unret (s.ent i)) s.n
  lostW : ∀ i, s.lost = some i → i < s.n ∧ (s.ent i).status = .waiting ∧ s.front = .stopped ∧ s.fault ≠ none
  frontR : ∀ i g, s.front = .resolve i g → i + 1 = s.n
  renLt : ∀ r i, (s.rename r).producer = some i → i < s.n
  inflLt : ∀ a i, s.inflight a = some i → i < s.n
  srcNeed : ∀ i, i < s.n → (s.ent i).need = (s.ent i).srcs.filterMap Src.producer ++ (s.ent i).need.drop ((s.ent i).srcs.filterMap Src.producer).length

abbrev WF (s : St I V A B) : Prop := WF' s none

theorem lostTok_none (i : Nat) : lostTok none i = 0 := by simp [lostTok]

theorem tokens_pos {s : St I V A B} {i : Nat} (h : 0 < tokens s i) :
    (∃ d, d < s.n ∧ i ∈ (s.ent d).dependents) ∨ (∃ p, s.main = .dispatching i p) ∨ s.lost = some i := by
  unfold tokens at h
  by_cases h1 : 0 < sumTo (fun d => (s.ent d).dependents.count i) s.n
  · obtain ⟨d, hd, hp⟩ := sumTo_pos _ h1
    exact Or.inl ⟨d, hd, List.count_pos_iff.1 hp⟩
  · by_cases h2 : s.lost = some i
    · exact Or.inr (Or.inr h2)
    · right; left
      have : lostTok s.lost i = 0 := by simp [lostTok, h2]
      have h3 : 0 < s.main.disp i := by omega
      revert h3
      cases hm : s.main with
      | idle => simp [Main.disp]
      | retiring j => simp [Main.disp]
      | dispatching j p =>
        simp only [Main.disp]
        split
        · rename_i hj; intro _; subst hj; exact ⟨p, rfl⟩
        · intro h; omega

theorem wf_start (isa : Isa I V A B) (mem : A → B) (pc : Nat) (e0 : Entry I A) : WF (start isa mem pc e0) := by
  constructor <;> simp [start, Src.producer, sumTo]

/-! ### decrement -/
theorem wf_decr {s : St I V A B} {i : Nat} (h : WF' s (some i)) (hi : i < s.n) (hw : (s.ent i).status = .waiting) (bg : Bool) :
    WF (decr s i bg) := by
  have hd := h.deps i hi
  have hpos : (s.ent i).deps = tokens s i + 1 := by rw [hd]; simp [lostTok]
  have hnr : i ∉ s.ready.map Prod.fst := by
    intro hm; have := (h.readyIff i).1 hm; omega
  have hst : ∀ j, ((decr s i bg).ent j).status = (s.ent j).status := by
    intro j; unfold decr; dsimp only; split <;> (by_cases hj : j = i <;> simp [setEnt, hj])
  have hdp : ∀ j, ((decr s i bg).ent j).dependents = (s.ent j).dependents := by
    intro j; unfold decr; dsimp only; split <;> (by_cases hj : j = i <;> simp [setEnt, hj])
  have hnd : ∀ j, ((decr s i bg).ent j).need = (s.ent j).need := by
    intro j; unfold decr; dsimp only; split <;> (by_cases hj : j = i <;> simp [setEnt, hj])
  have hsr : ∀ j, ((decr s i bg).ent j).srcs = (s.ent j).srcs := by
    intro j; unfold decr; dsimp only; split <;> (by_cases hj : j = i <;> simp [setEnt, hj])
  have hde : ∀ j, ((decr s i bg).ent j).deps = if j = i then (s.ent i).deps - 1 else (s.ent j).deps := by
    intro j; unfold decr; dsimp only; split <;> (by_cases hj : j = i <;> simp [setEnt, hj])
  have hn : (decr s i bg).n = s.n := by unfold decr; dsimp only; split <;> rfl
  have hmain : (decr s i bg).main = s.main := by unfold decr; dsimp only; split <;> rfl
  have hlost : (decr s i bg).lost = s.lost := by unfold decr; dsimp only; split <;> rfl
  have hfront : (decr s i bg).front = s.front := by unfold decr; dsimp only; split <;> rfl
  have hcnt : (decr s i bg).inflightCount = s.inflightCount := by unfold decr; dsimp only; split <;> rfl
  have hren : (decr s i bg).rename = s.rename := by unfold decr; dsimp only; split <;> rfl
  have hinf : (decr s i bg).inflight = s.inflight := by unfold decr; dsimp only; split <;> rfl
  have hfa : (decr s i bg).fault = s.fault := by unfold decr; dsimp only; split <;> rfl
  have hrdy : (decr s i bg).ready = if (s.ent i).deps = 1 then s.ready ++ [(i, bg)] else s.ready := by
    unfold decr; dsimp only; split <;> rfl
  have htok : ∀ j, tokens (decr s i bg) j = tokens s j := by
    intro j; unfold tokens; rw [hn, hmain, hlost]; simp only [hdp]
  constructor
  · intro j p hj; rw [hmain] at hj; have := h.mainD j p hj
    rw [hn, hst, hnd, hlost, hfront]; exact this
  · intro j hj; rw [hmain] at hj; have := h.mainR j hj; rw [hn, hst]; exact this
  · intro d hdn j hj; rw [hn] at hdn ⊢; rw [hdp] at hj; have := h.dep d hdn j hj; simp only [hst, hnd]; exact this
  · intro j hj d hd'; rw [hn] at hj; rw [hnd] at hd'; exact h.needLt j hj d hd'
  · intro j hj d hd'; rw [hn] at hj; rw [hnd] at hd'
    have := h.needOk j hj d hd'
    unfold Waits at this ⊢; rw [hdp, hmain, hlost, hst]; exact this
  · intro j hj; rw [hn] at hj; rw [htok, hde, lostTok_none]
    split
    · rename_i hji; subst hji; omega
    · rename_i hji
      have := h.deps j hj; rw [this]
      have : lostTok (some i) j = 0 := by simp only [lostTok]; rw [if_neg]; intro hh; injection hh with hh; exact hji hh.symm
      omega
  · rw [hrdy]; split
    · rw [List.map_append, List.nodup_append]
      refine ⟨h.readyNodup, by simp, ?_⟩
      intro a ha b hb; simp at hb; subst hb; intro hab; subst hab; exact hnr ha
    · exact h.readyNodup
  · intro j; rw [hrdy, hn, hst, hde]
    by_cases hji : j = i
    · subst hji
      by_cases h1 : (s.ent j).deps = 1
      · rw [if_pos h1, if_pos rfl]; simp [hi, hw, h1]
      · rw [if_neg h1, if_pos rfl]
        constructor
        · intro hm; exact absurd hm hnr
        · rintro ⟨_, _, h0⟩; omega
    · rw [if_neg hji]
      rw [← h.readyIff j]
      split
      · simp [hji]
      · exact Iff.rfl
  · rw [hcnt, hn, h.count]; apply sumTo_congr; intro j _; unfold unret; rw [hst]
  · intro j hj; rw [hlost] at hj; have := h.lostW j hj; rw [hn, hst, hfront, hfa]; exact this
  · intro j g hj; rw [hfront] at hj; rw [hn]; exact h.frontR j g hj
  · intro r j hj; rw [hren] at hj; rw [hn]; exact h.renLt r j hj
  · intro a j hj; rw [hinf] at hj; rw [hn]; exact h.inflLt a j hj
  · intro j hj; rw [hn] at hj; rw [hnd, hsr]; exact h.srcNeed j hj

/-! ### the steps of the main thread and of the background -/

theorem wf_dispatched {s : St I V A B} {i : Nat} (h : WF s) (hm : s.main = .dispatching i []) :
    WF (decr { s with main := .idle } i false) := by
  obtain ⟨hin, _, hw, hl, _⟩ := h.mainD i [] hm
  refine wf_decr (s := { s with main := .idle }) ?_ (by dsimp only; omega) hw false
  constructor
  · intro j p hj; simp at hj
  · intro j hj; simp at hj
  · exact h.dep
  · exact h.needLt
  · intro j hj d hd
    rcases h.needOk j hj d hd with h1 | ⟨p, h1, h2⟩ | h1 | h1
    · exact Or.inl h1
    · rw [hm] at h1; injection h1 with _ h1; subst h1; simp at h2
    · exact Or.inr (Or.inr (Or.inl h1))
    · exact Or.inr (Or.inr (Or.inr h1))
  · intro j hj
    have := h.deps j hj
    dsimp only
    rw [this]; unfold tokens; dsimp only; rw [hm, lostTok_none]
    simp only [Main.disp, lostTok, Option.some.injEq]; split <;> omega
  · exact h.readyNodup
  · exact h.readyIff
  · exact h.count
  · exact h.lostW
  · exact h.frontR
  · exact h.renLt
  · exact h.inflLt
  · exact h.srcNeed

theorem count_cons_eq (i j : Nat) (l : List Nat) : (i :: l).count j = l.count j + if i = j then 1 else 0 := by
  rw [List.count_cons]; simp [beq_iff_eq]

theorem wf_dep {s : St I V A B} {i d : Nat} {ds : List Nat} (h : WF s) (hm : s.main = .dispatching i (d :: ds)) :
    WF (depStep s i d ds) := by
  obtain ⟨hin, hp, hw, hl, g, hg⟩ := h.mainD i _ hm
  have hdn : d ∈ (s.ent i).need := hp d (by simp)
  have hdi : d < i := h.needLt i (by omega) d hdn
  by_cases hst : (s.ent d).status = .waiting ∨ (s.ent d).status = .running
  · have hs : depStep s i d ds = { s with
        main := .dispatching i ds
        ent := setEnt (setEnt s.ent d { s.ent d with dependents := i :: (s.ent d).dependents }) i
          { s.ent i with deps := (s.ent i).deps + 1 } } := by
      unfold depStep; dsimp only; rw [if_pos hst]; rw [setEnt_ne _ _ (by omega : i ≠ d)]
    rw [hs]
    have eD : ∀ j, (setEnt (setEnt s.ent d { s.ent d with dependents := i :: (s.ent d).dependents }) i
          { s.ent i with deps := (s.ent i).deps + 1 } j).dependents =
        if j = d then i :: (s.ent d).dependents else (s.ent j).dependents := by
      intro j
      by_cases hj : j = i
      · subst hj; rw [if_neg (by omega)]; simp
      · by_cases hjd : j = d
        · subst hjd; simp [setEnt, hj]
        · simp [setEnt, hj, hjd]
    have eS : ∀ j, (setEnt (setEnt s.ent d { s.ent d with dependents := i :: (s.ent d).dependents }) i
          { s.ent i with deps := (s.ent i).deps + 1 } j).status = (s.ent j).status := by
      intro j
      by_cases hj : j = i
      · subst hj; simp
      · by_cases hjd : j = d
        · subst hjd; simp [setEnt, hj]
        · simp [setEnt, hj, hjd]
    have eN : ∀ j, (setEnt (setEnt s.ent d { s.ent d with dependents := i :: (s.ent d).dependents }) i
          { s.ent i with deps := (s.ent i).deps + 1 } j).need = (s.ent j).need := by
      intro j
      by_cases hj : j = i
      · subst hj; simp
      · by_cases hjd : j = d
        · subst hjd; simp [setEnt, hj]
        · simp [setEnt, hj, hjd]
    have eR : ∀ j, (setEnt (setEnt s.ent d { s.ent d with dependents := i :: (s.ent d).dependents }) i
          { s.ent i with deps := (s.ent i).deps + 1 } j).srcs = (s.ent j).srcs := by
      intro j
      by_cases hj : j = i
      · subst hj; simp
      · by_cases hjd : j = d
        · subst hjd; simp [setEnt, hj]
        · simp [setEnt, hj, hjd]
    have eP : ∀ j, (setEnt (setEnt s.ent d { s.ent d with dependents := i :: (s.ent d).dependents }) i
          { s.ent i with deps := (s.ent i).deps + 1 } j).deps = (s.ent j).deps + if j = i then 1 else 0 := by
      intro j
      by_cases hj : j = i
      · subst hj; simp
      · by_cases hjd : j = d
        · subst hjd; simp [setEnt, hj]
        · simp [setEnt, hj, hjd]
    constructor
    · intro j p hj; dsimp only at hj; injection hj with h1 h2; subst h1; subst h2
      dsimp only; simp only [eS, eN]
      exact ⟨hin, fun d' hd' => hp d' (by simp [hd']), hw, hl, g, hg⟩
    · intro j hj; simp at hj
    · intro d' hd' j hj; dsimp only at hd' hj ⊢; simp only [eS, eN, eD] at hj ⊢
      by_cases hdd : d' = d
      · subst hdd; rw [if_pos rfl] at hj
        rcases List.mem_cons.1 hj with hj | hj
        · subst hj; refine ⟨by omega, hw, hdn, ?_⟩
          rcases hst with hst | hst <;> rw [hst] <;> simp
        · exact h.dep _ hd' j hj
      · rw [if_neg hdd] at hj; exact h.dep _ hd' j hj
    · intro j hj d' hd'; dsimp only at hj hd'; rw [eN] at hd'; exact h.needLt j hj d' hd'
    · intro j hj d' hd'; dsimp only at hj hd'; rw [eN] at hd'
      unfold Waits; dsimp only; rw [eD, eS]
      rcases h.needOk j hj d' hd' with h1 | ⟨p, h1, h2⟩ | h1 | h1
      · left; split
        · rename_i hdd; subst hdd; exact List.mem_cons_of_mem _ h1
        · exact h1
      · rw [hm] at h1; injection h1 with h1 h3; subst h1; subst h3
        rcases List.mem_cons.1 h2 with h2 | h2
        · left; rw [if_pos h2]; simp
        · right; left; exact ⟨ds, rfl, h2⟩
      · exact Or.inr (Or.inr (Or.inl h1))
      · exact Or.inr (Or.inr (Or.inr h1))
    · intro j hj; dsimp only at hj ⊢; rw [eP, h.deps j hj]
      unfold tokens; dsimp only; rw [hm]; simp only [eD]
      have := sumTo_update (f := fun d' => (if d' = d then i :: (s.ent d).dependents else (s.ent d').dependents).count j)
        (g := fun d' => (s.ent d').dependents.count j) s.n d (by omega) (by intro k _ hk; simp [hk])
      simp only [if_pos] at this
      rw [count_cons_eq] at this
      have e2 : (if i = j then 1 else 0) = (if j = i then 1 else 0) := by
        by_cases hji : j = i
        · simp [hji]
        · rw [if_neg hji, if_neg (fun hh => hji hh.symm)]
      simp only [Main.disp]
      omega
    · exact h.readyNodup
    · intro j; dsimp only; rw [eS, eP, h.readyIff j]
      by_cases hji : j = i
      · subst hji
        have : (s.ent j).deps ≠ 0 := by
          rw [h.deps j (by omega)]; unfold tokens; rw [hm]; simp [Main.disp]
        constructor
        · rintro ⟨_, _, h0⟩; exact absurd h0 this
        · rintro ⟨_, _, h0⟩; rw [if_pos rfl] at h0; omega
      · simp [hji]
    · dsimp only; rw [h.count]; apply sumTo_congr; intro j _; unfold unret; rw [eS]
    · intro j hj; dsimp only at hj; rw [hl] at hj; exact absurd hj (by simp)
    · exact h.frontR
    · exact h.renLt
    · exact h.inflLt
    · intro j hj; dsimp only at hj ⊢; rw [eN, eR]; exact h.srcNeed j hj
  · have hs : depStep s i d ds = { s with main := .dispatching i ds } := by
      unfold depStep; dsimp only; rw [if_neg hst]
    rw [hs]
    have hst' : (s.ent d).status = .retiring ∨ (s.ent d).status = .retired := by
      cases hh : (s.ent d).status with
      | waiting => exact absurd (Or.inl hh) hst
      | running => exact absurd (Or.inr hh) hst
      | retiring => exact Or.inl rfl
      | retired => exact Or.inr rfl
    constructor
    · intro j p hj; dsimp only at hj; injection hj with h1 h2; subst h1; subst h2
      exact ⟨hin, fun d' hd' => hp d' (by simp [hd']), hw, hl, g, hg⟩
    · intro j hj; simp at hj
    · exact h.dep
    · exact h.needLt
    · intro j hj d' hd'
      rcases h.needOk j hj d' hd' with h1 | ⟨p, h1, h2⟩ | h1 | h1
      · exact Or.inl h1
      · rw [hm] at h1; injection h1 with h1 h3; subst h1; subst h3
        rcases List.mem_cons.1 h2 with h2 | h2
        · subst h2; exact Or.inr (Or.inr (Or.inr hst'))
        · exact Or.inr (Or.inl ⟨ds, rfl, h2⟩)
      · exact Or.inr (Or.inr (Or.inl h1))
      · exact Or.inr (Or.inr (Or.inr h1))
    · intro j hj; have := h.deps j hj; dsimp only; rw [this]; unfold tokens; dsimp only; rw [hm]; rfl
    · exact h.readyNodup
    · exact h.readyIff
    · exact h.count
    · exact h.lostW
    · exact h.frontR
    · exact h.renLt
    · exact h.inflLt
    · exact h.srcNeed

theorem wf_notify {s : St I V A B} {i : Nat} (h : WF s) (hi : i < s.n) (hst : (s.ent i).status = .retiring)
    (hne : (s.ent i).dependents ≠ []) : WF (notifyStep s i) := by
  unfold notifyStep
  cases hd : (s.ent i).dependents with
  | nil => exact absurd hd hne
  | cons d ds =>
    dsimp only
    have hdd := h.dep i hi d (by rw [hd]; simp)
    have hdi : d ≠ i := by intro hh; rw [hh] at hdd; rw [hst] at hdd; exact absurd hdd.2.1 (by simp)
    have eD : ∀ j, (setEnt s.ent i { s.ent i with dependents := ds } j).dependents = if j = i then ds else (s.ent j).dependents := by
      intro j; by_cases hj : j = i <;> simp [setEnt, hj]
    have eS : ∀ j, (setEnt s.ent i { s.ent i with dependents := ds } j).status = (s.ent j).status := by
      intro j; by_cases hj : j = i <;> simp [setEnt, hj]
    have eN : ∀ j, (setEnt s.ent i { s.ent i with dependents := ds } j).need = (s.ent j).need := by
      intro j; by_cases hj : j = i <;> simp [setEnt, hj]
    have eR : ∀ j, (setEnt s.ent i { s.ent i with dependents := ds } j).srcs = (s.ent j).srcs := by
      intro j; by_cases hj : j = i <;> simp [setEnt, hj]
    have eP : ∀ j, (setEnt s.ent i { s.ent i with dependents := ds } j).deps = (s.ent j).deps := by
      intro j; by_cases hj : j = i <;> simp [setEnt, hj]
    refine wf_decr (s := { s with ent := setEnt s.ent i { s.ent i with dependents := ds } }) ?_ (by dsimp only; exact hdd.1) (by dsimp only; rw [eS]; exact hdd.2.1) _
    constructor
    · intro j p hj; dsimp only at hj ⊢; rw [eN, eS]; exact h.mainD j p hj
    · intro j hj; dsimp only at hj ⊢; rw [eS]; exact h.mainR j hj
    · intro d' hd' j hj; dsimp only at hd' hj ⊢; simp only [eS, eN, eD] at hj ⊢
      by_cases hdd' : d' = i
      · subst hdd'; rw [if_pos rfl] at hj; exact h.dep _ hd' j (by rw [hd]; exact List.mem_cons_of_mem _ hj)
      · rw [if_neg hdd'] at hj; exact h.dep _ hd' j hj
    · intro j hj d' hd'; dsimp only at hj hd'; rw [eN] at hd'; exact h.needLt j hj d' hd'
    · intro j hj d' hd'; dsimp only at hj hd'; rw [eN] at hd'
      unfold Waits; dsimp only; rw [eD, eS]
      by_cases hdd' : d' = i
      · subst hdd'; exact Or.inr (Or.inr (Or.inr (Or.inl hst)))
      · rw [if_neg hdd']; exact h.needOk j hj d' hd'
    · intro j hj; dsimp only at hj ⊢; rw [eP, h.deps j hj, lostTok_none]
      unfold tokens; dsimp only; simp only [eD]
      have := sumTo_update (f := fun d' => (if d' = i then ds else (s.ent d').dependents).count j)
        (g := fun d' => (s.ent d').dependents.count j) s.n i hi (by intro k _ hk; simp [hk])
      simp only [if_pos] at this
      rw [hd, count_cons_eq] at this
      have e2 : lostTok (some d) j = if d = j then 1 else 0 := by simp [lostTok]
      omega
    · exact h.readyNodup
    · intro j; dsimp only; rw [eS, eP]; exact h.readyIff j
    · dsimp only; rw [h.count]; apply sumTo_congr; intro j _; unfold unret; rw [eS]
    · intro j hj; dsimp only at hj ⊢; rw [eS]; exact h.lostW j hj
    · exact h.frontR
    · exact h.renLt
    · exact h.inflLt
    · intro j hj; dsimp only at hj ⊢; rw [eN, eR]; exact h.srcNeed j hj

/-- Changing only the status of an instruction that is not waiting, or that becomes ready to leave. -/
theorem wf_status {s : St I V A B} {i : Nat} {st : Status} (h : WF s) (hi : i < s.n) (hw : (s.ent i).status ≠ .waiting)
    (hw' : st ≠ .waiting) (hret : st = .retired ↔ False) (hold : (s.ent i).status ≠ .retired)
    (hst : (s.ent i).status = .retiring → st = .retiring) :
    WF { s with ent := setEnt s.ent i { s.ent i with status := st } } := by
  have eD : ∀ j, (setEnt s.ent i { s.ent i with status := st } j).dependents = (s.ent j).dependents := by
    intro j; by_cases hj : j = i <;> simp [setEnt, hj]
  have eS : ∀ j, (setEnt s.ent i { s.ent i with status := st } j).status = if j = i then st else (s.ent j).status := by
    intro j; by_cases hj : j = i <;> simp [setEnt, hj]
  have eN : ∀ j, (setEnt s.ent i { s.ent i with status := st } j).need = (s.ent j).need := by
    intro j; by_cases hj : j = i <;> simp [setEnt, hj]
  have eR : ∀ j, (setEnt s.ent i { s.ent i with status := st } j).srcs = (s.ent j).srcs := by
    intro j; by_cases hj : j = i <;> simp [setEnt, hj]
  have eP : ∀ j, (setEnt s.ent i { s.ent i with status := st } j).deps = (s.ent j).deps := by
    intro j; by_cases hj : j = i <;> simp [setEnt, hj]
  have hkeep : ∀ j, (s.ent j).status = .waiting → (if j = i then st else (s.ent j).status) = .waiting := by
    intro j hj; by_cases hji : j = i
    · subst hji; exact absurd hj hw
    · rw [if_neg hji]; exact hj
  constructor
  · intro j p hj; dsimp only at hj ⊢; rw [eN, eS]
    obtain ⟨a, b, c, d⟩ := h.mainD j p hj; exact ⟨a, b, hkeep j c, d⟩
  · intro j hj; dsimp only at hj ⊢; rw [eS]
    obtain ⟨a, b⟩ := h.mainR j hj; refine ⟨a, ?_⟩
    split
    · rename_i hji; subst hji; exact hst b
    · exact b
  · intro d hd j hj; dsimp only at hd hj ⊢; simp only [eD, eS, eN] at hj ⊢
    obtain ⟨a, b, c, e⟩ := h.dep d hd j hj
    refine ⟨a, hkeep j b, c, ?_⟩
    split
    · intro hh; exact (hret.1 hh)
    · exact e
  · intro j hj d' hd'; dsimp only at hj hd'; rw [eN] at hd'; exact h.needLt j hj d' hd'
  · intro j hj d' hd'; dsimp only at hj hd'; rw [eN] at hd'
    unfold Waits; dsimp only; rw [eD, eS]
    rcases h.needOk j hj d' hd' with h1 | h1 | h1 | h1
    · exact Or.inl h1
    · exact Or.inr (Or.inl h1)
    · exact Or.inr (Or.inr (Or.inl h1))
    · right; right; right
      by_cases hdi : d' = i
      · subst hdi; rw [if_pos rfl]
        rcases h1 with h1 | h1
        · exact Or.inl (hst h1)
        · exact absurd h1 hold
      · rw [if_neg hdi]; exact h1
  · intro j hj; dsimp only at hj ⊢; rw [eP, h.deps j hj]; unfold tokens; dsimp only; simp only [eD]
  · exact h.readyNodup
  · intro j; dsimp only; rw [eS, eP, h.readyIff j]
    by_cases hji : j = i
    · subst hji; rw [if_pos rfl]; simp [hw, hw']
    · rw [if_neg hji]
  · dsimp only; rw [h.count]; apply sumTo_congr; intro j _; unfold unret; rw [eS]
    by_cases hji : j = i
    · subst hji; rw [if_pos rfl, if_neg hold, if_neg (fun hh => hret.1 hh)]
    · rw [if_neg hji]
  · intro j hj; dsimp only at hj ⊢; rw [eS]
    obtain ⟨a, b, c⟩ := h.lostW j hj; exact ⟨a, hkeep j b, c⟩
  · exact h.frontR
  · exact h.renLt
  · exact h.inflLt
  · intro j hj; dsimp only at hj ⊢; rw [eN, eR]; exact h.srcNeed j hj

theorem wf_retire {s : St I V A B} {i : Nat} (h : WF s) (hi : i < s.n) (hst : (s.ent i).status = .retiring)
    (he : (s.ent i).dependents = []) : WF (retireStep s i) := by
  unfold retireStep
  have eD : ∀ j, (setEnt s.ent i { s.ent i with status := .retired } j).dependents = (s.ent j).dependents := by
    intro j; by_cases hj : j = i <;> simp [setEnt, hj]
  have eS : ∀ j, (setEnt s.ent i { s.ent i with status := .retired } j).status = if j = i then .retired else (s.ent j).status := by
    intro j; by_cases hj : j = i <;> simp [setEnt, hj]
  have eN : ∀ j, (setEnt s.ent i { s.ent i with status := .retired } j).need = (s.ent j).need := by
    intro j; by_cases hj : j = i <;> simp [setEnt, hj]
  have eR : ∀ j, (setEnt s.ent i { s.ent i with status := .retired } j).srcs = (s.ent j).srcs := by
    intro j; by_cases hj : j = i <;> simp [setEnt, hj]
  have eP : ∀ j, (setEnt s.ent i { s.ent i with status := .retired } j).deps = (s.ent j).deps := by
    intro j; by_cases hj : j = i <;> simp [setEnt, hj]
  have hkeep : ∀ j, (s.ent j).status = .waiting → (if j = i then Status.retired else (s.ent j).status) = .waiting := by
    intro j hj; by_cases hji : j = i
    · subst hji; rw [hst] at hj; exact absurd hj (by simp)
    · rw [if_neg hji]; exact hj
  have hmainD : ∀ j p, (if s.main = .retiring i then Main.idle else s.main) = .dispatching j p ↔ s.main = .dispatching j p := by
    intro j p
    split
    · rename_i hm; rw [hm]; simp
    · exact Iff.rfl
  have hdisp : (if s.main = .retiring i then Main.idle else s.main).disp = s.main.disp := by
    split
    · rename_i hm; rw [hm]; funext j; rfl
    · rfl
  constructor
  · intro j p hj; dsimp only at hj ⊢; rw [eN, eS]
    obtain ⟨a, b, c, d⟩ := h.mainD j p ((hmainD j p).1 hj); exact ⟨a, b, hkeep j c, d⟩
  · intro j hj; dsimp only at hj ⊢; rw [eS]
    split at hj
    · simp at hj
    · rename_i hm
      obtain ⟨a, b⟩ := h.mainR j hj; refine ⟨a, ?_⟩
      rw [if_neg]
      · exact b
      · intro hji; subst hji; exact hm hj
  · intro d hd j hj; dsimp only at hd hj ⊢; simp only [eD, eS, eN] at hj ⊢
    obtain ⟨a, b, c, e⟩ := h.dep d hd j hj
    refine ⟨a, hkeep j b, c, ?_⟩
    split
    · rename_i hdi; subst hdi; rw [he] at hj; simp at hj
    · exact e
  · intro j hj d' hd'; dsimp only at hj hd'; rw [eN] at hd'; exact h.needLt j hj d' hd'
  · intro j hj d' hd'; dsimp only at hj hd'; rw [eN] at hd'
    unfold Waits; dsimp only; rw [eD, eS]
    rcases h.needOk j hj d' hd' with h1 | ⟨p, h1, h2⟩ | h1 | h1
    · exact Or.inl h1
    · exact Or.inr (Or.inl ⟨p, (hmainD j p).2 h1, h2⟩)
    · exact Or.inr (Or.inr (Or.inl h1))
    · right; right; right
      by_cases hdi : d' = i
      · subst hdi; rw [if_pos rfl]; exact Or.inr rfl
      · rw [if_neg hdi]; exact h1
  · intro j hj; dsimp only at hj ⊢; rw [eP, h.deps j hj]; unfold tokens; dsimp only; simp only [eD]; rw [hdisp]
  · exact h.readyNodup
  · intro j; dsimp only; rw [eS, eP, h.readyIff j]
    by_cases hji : j = i
    · subst hji; rw [if_pos rfl, hst]; simp
    · rw [if_neg hji]
  · dsimp only; rw [h.count]
    have := sumTo_update (f := fun j => unret (setEnt s.ent i { s.ent i with status := .retired } j))
      (g := fun j => unret (s.ent j)) s.n i hi (by intro j _ hj; unfold unret; rw [eS, if_neg hj])
    have e1 : unret (setEnt s.ent i { s.ent i with status := .retired } i) = 0 := by simp [unret]
    have e2 : unret (s.ent i) = 1 := by simp [unret, hst]
    dsimp only at this
    rw [e1, e2] at this; omega
  · intro j hj; dsimp only at hj ⊢; rw [eS]
    obtain ⟨a, b, c⟩ := h.lostW j hj; exact ⟨a, hkeep j b, c⟩
  · exact h.frontR
  · exact h.renLt
  · exact h.inflLt
  · intro j hj; dsimp only at hj ⊢; rw [eN, eR]; exact h.srcNeed j hj

/-- The common part of executing a ready instruction. -/
theorem wf_exec_core {s : St I V A B} {i : Nat} {bg : Bool} {st : Status} {m : Main} (h : WF s) (hidle : s.main = .idle)
    (hr : (i, bg) ∈ s.ready) (hst : (st = .running ∧ m = .idle) ∨ (st = .retiring ∧ m = .retiring i))
    (vals : Nat → Nat → V) (mem : A → B) (f : Option Err) (hf : s.fault ≠ none → f ≠ none) :
    WF { s with ready := s.ready.erase (i, bg), ent := setEnt s.ent i { s.ent i with status := st }, main := m,
                vals := vals, mem := mem, fault := f } := by
  have hi := (h.readyIff i).1 (List.mem_map.2 ⟨(i, bg), hr, rfl⟩)
  obtain ⟨hin, hw, hd0⟩ := hi
  have ht := h.deps i hin
  rw [hd0, lostTok_none] at ht
  have hnodep : ∀ d, d < s.n → i ∉ (s.ent d).dependents := by
    intro d hd hm
    have h1 : 0 < (s.ent d).dependents.count i := List.count_pos_iff.2 hm
    have := le_sumTo (fun d => (s.ent d).dependents.count i) s.n d hd
    unfold tokens at ht;  omega
  have hnl : s.lost ≠ some i := by
    intro hh; unfold tokens at ht; rw [hh] at ht; simp [lostTok] at ht
  have eD : ∀ j, (setEnt s.ent i { s.ent i with status := st } j).dependents = (s.ent j).dependents := by
    intro j; by_cases hj : j = i <;> simp [setEnt, hj]
  have eS : ∀ j, (setEnt s.ent i { s.ent i with status := st } j).status = if j = i then st else (s.ent j).status := by
    intro j; by_cases hj : j = i <;> simp [setEnt, hj]
  have eN : ∀ j, (setEnt s.ent i { s.ent i with status := st } j).need = (s.ent j).need := by
    intro j; by_cases hj : j = i <;> simp [setEnt, hj]
  have eR : ∀ j, (setEnt s.ent i { s.ent i with status := st } j).srcs = (s.ent j).srcs := by
    intro j; by_cases hj : j = i <;> simp [setEnt, hj]
  have eP : ∀ j, (setEnt s.ent i { s.ent i with status := st } j).deps = (s.ent j).deps := by
    intro j; by_cases hj : j = i <;> simp [setEnt, hj]
  have hst1 : st ≠ .waiting := by rcases hst with ⟨h1, _⟩ | ⟨h1, _⟩ <;> rw [h1] <;> simp
  have hst2 : st ≠ .retired := by rcases hst with ⟨h1, _⟩ | ⟨h1, _⟩ <;> rw [h1] <;> simp
  have hmD : ∀ j p, m ≠ .dispatching j p := by
    intro j p; rcases hst with ⟨_, h1⟩ | ⟨_, h1⟩ <;> rw [h1] <;> simp
  have hdisp : m.disp = s.main.disp := by
    rw [hidle]; rcases hst with ⟨_, h1⟩ | ⟨_, h1⟩ <;> rw [h1] <;> rfl
  constructor
  · intro j p hj; exact absurd hj (hmD j p)
  · intro j hj; dsimp only at hj ⊢; rw [eS]
    rcases hst with ⟨_, h1⟩ | ⟨h2, h1⟩
    · rw [h1] at hj; simp at hj
    · rw [h1] at hj; injection hj with hj; subst hj; rw [if_pos rfl]; exact ⟨hin, h2⟩
  · intro d hd j hj; dsimp only at hd hj ⊢; simp only [eD, eS, eN] at hj ⊢
    obtain ⟨a, b, c, e⟩ := h.dep d hd j hj
    refine ⟨a, ?_, c, ?_⟩
    · rw [if_neg]
      · exact b
      · intro hh; subst hh; exact hnodep d hd hj
    · split
      · exact hst2
      · exact e
  · intro j hj d' hd'; dsimp only at hj hd'; rw [eN] at hd'; exact h.needLt j hj d' hd'
  · intro j hj d' hd'; dsimp only at hj hd'; rw [eN] at hd'
    unfold Waits; dsimp only; rw [eD, eS]
    rcases h.needOk j hj d' hd' with h1 | ⟨p, h1, h2⟩ | h1 | h1
    · exact Or.inl h1
    · rw [hidle] at h1; simp at h1
    · exact Or.inr (Or.inr (Or.inl h1))
    · right; right; right
      rw [if_neg]
      · exact h1
      · intro hh; subst hh; rw [hw] at h1; simp at h1
  · intro j hj; dsimp only at hj ⊢; rw [eP, h.deps j hj]; unfold tokens; dsimp only; simp only [eD]; rw [hdisp]
  · dsimp only
    exact (List.Sublist.map _ List.erase_sublist).nodup h.readyNodup
  · intro j; dsimp only; rw [eS, eP]
    have hnd : s.ready.Nodup := List.Nodup.of_map _ h.readyNodup
    by_cases hji : j = i
    · subst hji; rw [if_pos rfl]
      constructor
      · intro hm
        obtain ⟨⟨x, y⟩, hx, hxe⟩ := List.mem_map.1 hm
        dsimp only at hxe; subst hxe
        have hx1 := (List.Nodup.mem_erase_iff hnd).1 hx
        exfalso
        have hinj := List.inj_on_of_nodup_map h.readyNodup hx1.2 hr rfl
        exact hx1.1 hinj
      · rintro ⟨_, hh, _⟩; exact absurd hh hst1
    · rw [if_neg hji, ← h.readyIff j]
      constructor
      · intro hm; obtain ⟨x, hx, hxe⟩ := List.mem_map.1 hm
        exact List.mem_map.2 ⟨x, List.mem_of_mem_erase hx, hxe⟩
      · intro hm; obtain ⟨x, hx, hxe⟩ := List.mem_map.1 hm
        refine List.mem_map.2 ⟨x, (List.Nodup.mem_erase_iff hnd).2 ⟨?_, hx⟩, hxe⟩
        intro hh; subst hh; exact hji hxe.symm
  · dsimp only; rw [h.count]; apply sumTo_congr; intro j _; unfold unret; rw [eS]
    by_cases hji : j = i
    · subst hji; rw [if_pos rfl, if_neg hst2, hw]; simp
    · rw [if_neg hji]
  · intro j hj; dsimp only at hj ⊢; rw [eS]
    obtain ⟨a, b, c, d⟩ := h.lostW j hj; refine ⟨a, ?_, c, hf d⟩
    rw [if_neg]
    · exact b
    · intro hh; subst hh; exact hnl hj
  · exact h.frontR
  · exact h.renLt
  · exact h.inflLt
  · intro j hj; dsimp only at hj ⊢; rw [eN, eR]; exact h.srcNeed j hj

theorem setFault_ne (f : Option Err) (e : Err) : setFault f e ≠ none := by cases f <;> simp [setFault]

theorem wf_exec {s : St I V A B} {i : Nat} {bg : Bool} (isa : Isa I V A B) (init : Nat → V) (h : WF s)
    (hidle : s.main = .idle) (hr : (i, bg) ∈ s.ready) : WF (execStep isa init s i bg) := by
  unfold execStep
  dsimp only
  split
  · rename_i x hx
    have := wf_exec_core (st := .retiring) (m := .retiring i) h hidle hr (Or.inr ⟨rfl, rfl⟩) s.vals s.mem s.fault (fun h => h)
    exact this
  · rename_i hx
    split
    · rename_i x _
      exact wf_exec_core (st := .retiring) (m := .retiring i) h hidle hr (Or.inr ⟨rfl, rfl⟩) s.vals s.mem (setFault s.fault x)
        (fun _ => setFault_ne _ _)
    · rename_i outs mem' _
      split
      · have := wf_exec_core (st := .running) (m := .idle) h hidle hr (Or.inl ⟨rfl, rfl⟩)
          (writeOuts s.vals isa.dflt i outs) mem' s.fault (fun h => h)
        rw [← hidle] at this
        exact this
      · exact wf_exec_core (st := .retiring) (m := .retiring i) h hidle hr (Or.inr ⟨rfl, rfl⟩)
          (writeOuts s.vals isa.dflt i outs) mem' s.fault (fun h => h)

theorem wf_front {s : St I V A B} (h : WF s) (fr : Front) (f : Option Err) (pc g : Nat) (hidle : s.main = .idle)
    (hfr : ∀ i g, fr ≠ .resolve i g) (hl : s.lost ≠ none → fr = .stopped ∧ f ≠ none) :
    WF { s with front := fr, fault := f, pc := pc, gas := g } := by
  constructor
  · intro i p hi; dsimp only at hi; rw [hidle] at hi; simp at hi
  · exact h.mainR
  · exact h.dep
  · exact h.needLt
  · exact h.needOk
  · exact h.deps
  · exact h.readyNodup
  · exact h.readyIff
  · exact h.count
  · intro i hi
    obtain ⟨a, b, c⟩ := h.lostW i hi
    have := hl (by dsimp only at hi; rw [hi]; simp)
    exact ⟨a, b, this.1, this.2⟩
  · intro i g hi; exact absurd hi (hfr i g)
  · exact h.renLt
  · exact h.inflLt
  · exact h.srcNeed

theorem wf_resolve {s : St I V A B} (isa : Isa I V A B) (init : Nat → V) (h : WF s) (i g : Nat) (hidle : s.main = .idle)
    (hf : s.front = .resolve i g) : WF (resolveStep isa init s i g) := by
  have hl : s.lost = none := by
    cases hl : s.lost with
    | none => rfl
    | some j => have := (h.lostW j hl).2.2.1; rw [hf] at this; simp at this
  unfold resolveStep
  split
  · exact wf_front h .fetch s.fault _ _ hidle (by intros; simp) (fun hh => absurd hl hh)
  · exact wf_front h .stopped s.fault s.pc s.gas hidle (by intros; simp) (fun hh => absurd hl hh)
  · exact wf_front h .stopped (setFault s.fault _) s.pc s.gas hidle (by intros; simp) (fun hh => absurd hl hh)

theorem renameAll_producer (ρ : Nat → Src) (i : Nat) : ∀ (ds : List Nat) (k : Nat) (r j : Nat),
    (renameAll ρ i k ds r).producer = some j → j = i ∨ (ρ r).producer = some j := by
  intro ds
  induction ds generalizing ρ with
  | nil => intro k r j h; exact Or.inr h
  | cons d ds ih =>
    intro k r j h
    simp only [renameAll] at h
    rcases ih _ _ _ _ h with h1 | h1
    · exact Or.inl h1
    · split at h1
      · simp [Src.producer] at h1; exact Or.inl h1.symm
      · exact Or.inr h1

/-- Adding an instruction. -/
theorem wf_new {s : St I V A B} (h : WF s) (hidle : s.main = .idle) (hfr : s.front = .fetch) (inst : I) (srcs : List Src)
    (need : List Nat) (addrs : List A) (ρ : Nat → Src) (infl : A → Option Nat) (m : Main) (fr : Front) (lost : Option Nat)
    (f : Option Err) (hneed : ∀ d ∈ need, d < s.n) (hsn : need = srcs.filterMap Src.producer ++ need.drop (srcs.filterMap Src.producer).length)
    (hρ : ∀ r j, (ρ r).producer = some j → j ≤ s.n)
    (hi : ∀ a j, infl a = some j → j ≤ s.n)
    (hc : (m = .dispatching s.n need ∧ lost = none ∧ ∃ g, fr = .resolve s.n g) ∨ (m = .idle ∧ lost = some s.n ∧ fr = .stopped ∧ f ≠ none)) :
    WF { s with n := s.n + 1, rename := ρ, inflightCount := s.inflightCount + 1, front := fr, fault := f, lost := lost, main := m,
                inflight := infl, ent := setEnt s.ent s.n ⟨inst, srcs, 1, [], .waiting, need, addrs⟩ } := by
  have hl0 : s.lost = none := by
    cases hl : s.lost with
    | none => rfl
    | some j => have := (h.lostW j hl).2.2.1; rw [hfr] at this; simp at this
  have e : ∀ j, j < s.n → setEnt s.ent s.n ⟨inst, srcs, 1, [], .waiting, need, addrs⟩ j = s.ent j :=
    fun j hj => setEnt_ne _ _ (by omega)
  have htok : ∀ j, m.disp j + lostTok lost j = if j = s.n then 1 else 0 := by
    intro j
    rcases hc with ⟨h1, h2, _⟩ | ⟨h1, h2, _⟩
    · rw [h1, h2, lostTok_none]; simp only [Main.disp]
      by_cases hj : j = s.n
      · rw [if_pos hj.symm, if_pos hj]
      · rw [if_neg (fun hh => hj hh.symm), if_neg hj]
    · rw [h1, h2]; simp only [Main.disp, lostTok, Option.some.injEq]
      by_cases hj : j = s.n
      · rw [if_pos hj.symm, if_pos hj]
      · rw [if_neg (fun hh => hj hh.symm), if_neg hj]
  have hnodep : ∀ d, d < s.n → s.n ∉ (s.ent d).dependents := by
    intro d hd hm; have := (h.dep d hd _ hm).1; omega
  constructor
  · intro j p hj; dsimp only at hj ⊢
    rcases hc with ⟨h1, h2, h3⟩ | ⟨h1, _⟩
    · rw [h1] at hj; injection hj with hj hj2; subst hj; subst hj2
      rw [setEnt_same]; exact ⟨rfl, fun _ h => h, rfl, h2, h3⟩
    · rw [h1] at hj; simp at hj
  · intro j hj; dsimp only at hj
    rcases hc with ⟨h1, _⟩ | ⟨h1, _⟩ <;> rw [h1] at hj <;> simp at hj
  · intro d hd j hj; dsimp only at hd hj ⊢
    by_cases hdn : d = s.n
    · subst hdn; rw [setEnt_same] at hj; simp at hj
    · rw [e d (by omega)] at hj ⊢
      obtain ⟨a, b⟩ := h.dep d (by omega) j hj
      rw [e j a]; exact ⟨by omega, b⟩
  · intro j hj d hd; dsimp only at hj hd
    by_cases hjn : j = s.n
    · subst hjn; rw [setEnt_same] at hd; exact hneed d hd
    · rw [e j (by omega)] at hd; exact h.needLt j (by omega) d hd
  · intro j hj d hd; dsimp only at hj hd
    unfold Waits; dsimp only
    by_cases hjn : j = s.n
    · subst hjn; rw [setEnt_same] at hd
      rcases hc with ⟨h1, _⟩ | ⟨_, h2, _⟩
      · exact Or.inr (Or.inl ⟨need, h1, hd⟩)
      · exact Or.inr (Or.inr (Or.inl h2))
    · rw [e j (by omega)] at hd
      have hdj := h.needLt j (by omega) d hd
      rw [e d (by omega)]
      rcases h.needOk j (by omega) d hd with h1 | ⟨p, h1, _⟩ | h1 | h1
      · exact Or.inl h1
      · rw [hidle] at h1; simp at h1
      · rw [hl0] at h1; simp at h1
      · exact Or.inr (Or.inr (Or.inr h1))
  · intro j hj; dsimp only at hj ⊢
    unfold tokens; dsimp only; rw [lostTok_none]
    simp only [sumTo]
    rw [setEnt_same]
    have e1 : sumTo (fun d => (setEnt s.ent s.n ⟨inst, srcs, 1, [], .waiting, need, addrs⟩ d).dependents.count j) s.n =
        sumTo (fun d => (s.ent d).dependents.count j) s.n := sumTo_congr _ (fun d hd => by rw [e d hd])
    rw [e1]
    have ht := htok j
    by_cases hjn : j = s.n
    · subst hjn; rw [setEnt_same]
      rw [sumTo_zero _ (fun d hd => List.count_eq_zero.2 (hnodep d hd))]
      rw [if_pos rfl] at ht; simp; omega
    · rw [e j (by omega), h.deps j (by omega)]
      unfold tokens; rw [hidle, hl0, lostTok_none]
      rw [if_neg hjn] at ht; have : Main.idle.disp j = 0 := rfl
      simp only [List.count_nil]; omega
  · exact h.readyNodup
  · intro j; dsimp only
    by_cases hjn : j = s.n
    · subst hjn; rw [setEnt_same]
      constructor
      · intro hm; have := ((h.readyIff _).1 hm).1; omega
      · rintro ⟨_, _, h0⟩; simp at h0
    · rw [h.readyIff j, setEnt_ne _ _ hjn]
      constructor
      · rintro ⟨a, b⟩; exact ⟨by omega, b⟩
      · rintro ⟨a, b⟩; exact ⟨by omega, b⟩
  · dsimp only; simp only [sumTo]; rw [h.count]
    congr 1
    · apply sumTo_congr; intro j hj; rw [e j hj]
    · simp [unret]
  · intro j hj; dsimp only at hj ⊢
    rcases hc with ⟨_, h2, _⟩ | ⟨_, h2, h3, h4⟩
    · rw [h2] at hj; simp at hj
    · rw [h2] at hj; injection hj with hj; subst hj
      rw [setEnt_same]; exact ⟨by omega, rfl, h3, h4⟩
  · intro j g hj; dsimp only at hj ⊢
    rcases hc with ⟨_, _, g', h3⟩ | ⟨_, _, h3, _⟩
    · rw [h3] at hj; injection hj with hj; omega
    · rw [h3] at hj; simp at hj
  · intro r j hj; dsimp only at hj ⊢; have := hρ r j hj; omega
  · intro a j hj; dsimp only at hj ⊢; have := hi a j hj; omega
  · intro j hj; dsimp only at hj ⊢
    by_cases hjn : j = s.n
    · subst hjn; rw [setEnt_same]; exact hsn
    · rw [e j (by omega)]; exact h.srcNeed j (by omega)

theorem wf_fetch {s : St I V A B} (isa : Isa I V A B) (prog : Nat → Except Err I) (init : Nat → V) (limit : Option Nat)
    (h : WF s) (hidle : s.main = .idle) (hfr : s.front = .fetch) : WF (fetchStep isa prog init limit s) := by
  have hl0 : s.lost = none := by
    cases hl : s.lost with
    | none => rfl
    | some j => have := (h.lostW j hl).2.2.1; rw [hfr] at this; simp at this
  have hρ : ∀ (inst : I) r j, (renameAll s.rename s.n 0 (isa.dsts inst) r).producer = some j → j ≤ s.n := by
    intro inst r j hj
    rcases renameAll_producer _ _ _ _ _ _ hj with h1 | h1
    · omega
    · have := h.renLt r j h1; omega
  have hprod : ∀ (inst : I), ∀ d ∈ ((isa.srcs inst).map s.rename).filterMap Src.producer, d < s.n := by
    intro inst d hd
    obtain ⟨x, hx, hxe⟩ := List.mem_filterMap.1 hd
    obtain ⟨r, _, hr⟩ := List.mem_map.1 hx
    rw [← hr] at hxe; exact h.renLt r d hxe
  unfold fetchStep
  split
  · exact wf_front h .stopped s.fault s.pc s.gas hidle (by intros; simp) (fun hh => absurd hl0 hh)
  · split
    · exact wf_front h .stopped (setFault s.fault _) s.pc s.gas hidle (by intros; simp) (fun hh => absurd hl0 hh)
    · rename_i inst _
      dsimp only
      split
      · exact wf_front h .stopped (setFault s.fault _) s.pc s.gas hidle (by intros; simp) (fun hh => absurd hl0 hh)
      · split
        · rename_i e _
          have := wf_new h hidle hfr inst ((isa.srcs inst).map s.rename)
            (((isa.srcs inst).map s.rename).filterMap Src.producer) [] (renameAll s.rename s.n 0 (isa.dsts inst)) s.inflight
            .idle .stopped (some s.n) (setFault s.fault e) (hprod inst) (by simp) (hρ inst)
            (fun a j hj => by have := h.inflLt a j hj; omega) (Or.inr ⟨rfl, rfl, rfl, setFault_ne _ _⟩)
          rw [← hidle] at this
          exact this
        · rename_i addrs _
          have hneed : ∀ d ∈ ((isa.srcs inst).map s.rename).filterMap Src.producer ++ memDeps s.inflight addrs, d < s.n := by
            intro d hd
            rcases List.mem_append.1 hd with hd | hd
            · exact hprod inst d hd
            · obtain ⟨a, _, ha⟩ := List.mem_filterMap.1 hd; exact h.inflLt a d ha
          have := wf_new h hidle hfr inst ((isa.srcs inst).map s.rename)
            (((isa.srcs inst).map s.rename).filterMap Src.producer ++ memDeps s.inflight addrs) addrs
            (renameAll s.rename s.n 0 (isa.dsts inst)) (markInflight s.inflight addrs s.n)
            (.dispatching s.n (((isa.srcs inst).map s.rename).filterMap Src.producer ++ memDeps s.inflight addrs))
            (.resolve s.n (isa.gas inst (((isa.srcs inst).map s.rename).map (s.val init)))) none s.fault hneed (by simp) (hρ inst)
            (fun a j hj => by
              unfold markInflight at hj; split at hj
              · injection hj with hj; omega
              · have := h.inflLt a j hj; omega) (Or.inl ⟨rfl, rfl, _, rfl⟩)
          rw [← hl0] at this
          exact this

theorem wf_step {s s' : St I V A B} (isa : Isa I V A B) (prog : Nat → Except Err I) (init : Nat → V) (limit : Option Nat)
    (h : WF s) (l : Label) (hs : step isa prog init limit s l = some s') : WF s' := by
  cases l with
  | fetch =>
    simp only [step] at hs
    split at hs
    · rename_i hc; injection hs with hs; subst hs; exact wf_fetch isa prog init limit h hc.1 hc.2
    · simp at hs
  | dep =>
    simp only [step] at hs
    split at hs
    · rename_i i d ds hm; injection hs with hs; subst hs; exact wf_dep h hm
    · simp at hs
  | dispatched =>
    simp only [step] at hs
    split at hs
    · rename_i i hm; injection hs with hs; subst hs; exact wf_dispatched h hm
    · simp at hs
  | resolve =>
    simp only [step] at hs
    split at hs
    · rename_i i g hf
      split at hs
      · rename_i hc; injection hs with hs; subst hs; exact wf_resolve isa init h i g hc.1 hf
      · simp at hs
    · simp at hs
  | exec i bg =>
    simp only [step] at hs
    split at hs
    · rename_i hc; injection hs with hs; subst hs; exact wf_exec isa init h hc.1 hc.2
    · simp at hs
  | asyncDone i =>
    simp only [step] at hs
    split at hs
    · rename_i hc; injection hs with hs; subst hs
      exact wf_status h hc.1 (by rw [hc.2]; simp) (by simp) (by simp) (by rw [hc.2]; simp) (fun _ => rfl)
    · simp at hs
  | notify i =>
    simp only [step] at hs
    split at hs
    · rename_i hc; injection hs with hs; subst hs; exact wf_notify h hc.1 hc.2.1 hc.2.2
    · simp at hs
  | retire i =>
    simp only [step] at hs
    split at hs
    · rename_i hc; injection hs with hs; subst hs; exact wf_retire h hc.1 hc.2.1 hc.2.2
    · simp at hs

theorem wf_run (isa : Isa I V A B) (prog : Nat → Except Err I) (init : Nat → V) (limit : Option Nat) :
    ∀ (ls : List Label) {s s' : St I V A B}, WF s → run isa prog init limit s ls = some s' → WF s' := by
  intro ls
  induction ls with
  | nil => intro s s' h hr; simp only [run] at hr; injection hr with hr; subst hr; exact h
  | cons l ls ih =>
    intro s s' h hr
    simp only [run] at hr
    split at hr
    · simp at hr
    · rename_i s1 h1; exact ih (wf_step isa prog init limit h l h1) hr

end Spf.Machine
