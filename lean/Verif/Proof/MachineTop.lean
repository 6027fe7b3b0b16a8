import Verif.Proof.MachineLive
import Verif.Proof.Exec
/-! Consequences for whole programs, and the instance of the real instruction set. -/
namespace Spf.Seq
open Spf.Cpu (Err)
open Spf.Machine (Isa)
variable {I V A B : Type} {isa : Isa I V A B} {prog : Nat → Except Err I}

theorem returns_det : ∀ {n m : Nat} {a b c : Arch V A B}, Returns isa prog n a b → Returns isa prog m a c → n = m ∧ b = c := by
  intro n
  induction n with
  | zero => intro m a b c h; exact absurd h (by simp [Returns])
  | succ n ih =>
    intro m a b c h h'
    cases m with
    | zero => exact absurd h' (by simp [Returns])
    | succ m =>
      simp only [Returns] at h h'
      split at h
      · exact absurd h id
      · rename_i a' hs; rw [hs] at h'; dsimp only at h'; exact ⟨by omega, by rw [h.2, h'.2]⟩
      · rename_i a' hs; rw [hs] at h'; dsimp only at h'
        obtain ⟨h1, h2⟩ := ih h h'
        exact ⟨by omega, h2⟩

theorem after_succ : ∀ (n : Nat) (a : Arch V A B), after isa prog (n + 1) a =
    (after isa prog n a).bind (fun x => match step isa prog x with | .ok (a', false) => some a' | _ => none) := by
  intro n
  induction n with
  | zero =>
    intro a; simp only [after, Option.bind_some]
    cases hs : step isa prog a with
    | error e => rfl
    | ok p => obtain ⟨a', f⟩ := p; cases f <;> rfl
  | succ n ih =>
    intro a
    rw [after]; rw [show after isa prog (n + 1) a = (match step isa prog a with | .ok (a', false) => after isa prog n a' | _ => none) from rfl]
    cases hs : step isa prog a with
    | error e => rfl
    | ok p =>
      obtain ⟨a', f⟩ := p
      cases f with
      | true => rfl
      | false => exact ih a'

theorem Local.mono {key key' : I → Nat} (h : Local isa key) (hk : ∀ i, key i ≤ key' i) : Local isa key' := by
  have ht : ∀ (i : I) (vs vs' : List V), vs.take (key' i) = vs'.take (key' i) → vs.take (key i) = vs'.take (key i) := by
    intro i vs vs' hh
    have := congrArg (List.take (key i)) hh
    rw [List.take_take, List.take_take, Nat.min_eq_left (hk i)] at this
    exact this
  exact ⟨fun i vs vs' hh => h.access_key i vs vs' (ht i _ _ hh), fun i pc vs vs' hh => h.next_key i pc vs vs' (ht i _ _ hh),
    h.exec_error, h.exec_ok, h.exec_frame⟩

/-! ### Evaluation, for the examples -/

def runN (isa : Isa I V A B) (prog : Nat → Except Err I) : Nat → Arch V A B → Option (Arch V A B)
  | 0, _ => none
  | n + 1, a => match step isa prog a with
    | .ok (a', true) => if n = 0 then some a' else none
    | .ok (a', false) => runN isa prog n a'
    | .error _ => none

theorem returns_of_runN : ∀ (n : Nat) (a b : Arch V A B), runN isa prog n a = some b → Returns isa prog n a b := by
  intro n
  induction n with
  | zero => intro a b h; simp [runN] at h
  | succ n ih =>
    intro a b h
    simp only [runN] at h
    simp only [Returns]
    cases hs : step isa prog a with
    | error e => rw [hs] at h; simp at h
    | ok p =>
      obtain ⟨a', f⟩ := p
      rw [hs] at h
      cases f with
      | true =>
        dsimp only at h ⊢
        split at h
        · rename_i hn; injection h with h; exact ⟨hn, h.symm⟩
        · simp at h
      | false => exact ih _ _ h

theorem returns_of_any {n : Nat} {a : Arch V A B} {f : Arch V A B → Bool} (h : (runN isa prog n a).any f = true) :
    ∃ b, Returns isa prog n a b ∧ f b = true := by
  cases hr : runN isa prog n a with
  | none => rw [hr] at h; simp at h
  | some b => rw [hr] at h; exact ⟨b, returns_of_runN n a b hr, by simpa using h⟩

def steadyB [DecidableEq A] (isa : Isa I V A B) (prog : Nat → Except Err I) (key : I → Nat) : Nat → Arch V A B → Slow A → Bool
  | 0, _, _ => true
  | n + 1, a, w => match prog a.pc, step isa prog a with
    | .ok inst, .ok (a', _) =>
      ((isa.srcs inst).take (key inst)).all (fun r => !w.reg r) && steadyB isa prog key n a' (slowStep isa inst a w)
    | _, _ => true

theorem steady_of_B [DecidableEq A] {key : I → Nat} : ∀ (n : Nat) (a : Arch V A B) (w : Slow A),
    steadyB isa prog key n a w = true → Steady isa prog key n a w := by
  intro n
  induction n with
  | zero => intro a w _; trivial
  | succ n ih =>
    intro a w h
    simp only [steadyB] at h
    simp only [Steady]
    cases h1 : prog a.pc with
    | error e => trivial
    | ok inst => cases h2 : step isa prog a with
      | error e => trivial
      | ok p =>
        rw [h1, h2] at h; dsimp only at h ⊢
        simp only [Bool.and_eq_true, List.all_eq_true, Bool.not_eq_true'] at h
        exact ⟨h.1, ih _ _ h.2⟩

def noBackgroundB (isa : Isa I V A B) (prog : Nat → Except Err I) : Nat → Arch V A B → Bool
  | 0, _ => true
  | n + 1, a => match prog a.pc, step isa prog a with
    | .ok inst, .ok (a', _) => !isa.async inst ((isa.srcs inst).map a.reg) && noBackgroundB isa prog n a'
    | _, _ => true

theorem noBackground_of_B : ∀ (n : Nat) (a : Arch V A B), noBackgroundB isa prog n a = true → NoBackground isa prog n a := by
  intro n
  induction n with
  | zero => intro a _; trivial
  | succ n ih =>
    intro a h
    simp only [noBackgroundB] at h
    simp only [NoBackground]
    cases h1 : prog a.pc with
    | error e => trivial
    | ok inst => cases h2 : step isa prog a with
      | error e => trivial
      | ok p =>
        rw [h1, h2] at h; dsimp only at h ⊢
        simp only [Bool.and_eq_true, Bool.not_eq_true'] at h
        exact ⟨h.1, ih _ h.2⟩

end Spf.Seq

namespace Spf.Machine
open Spf.Cpu (Err)
open Spf.Seq (Arch assign Local Slow slowInst slowStep Returns Steady NoBackground gasUsed)
variable {I V A B : Type} [DecidableEq A]
variable {isa : Isa I V A B} {prog : Nat → Except Err I} {a0 : Arch V A B} {s s' : St I V A B} {key : I → Nat} {limit : Option Nat}

/-- program order up to the return -/
theorem after_T (N : Nat) (W : Nat → Slow A) (hok : Ok isa prog key a0 N W) : ∀ i, i < N → Seq.after isa prog i a0 = some (T isa prog a0 i) := by
  intro i
  induction i with
  | zero => intro _; rfl
  | succ i ih =>
    intro hi
    rw [Seq.after_succ, ih (by omega)]
    obtain ⟨inst, l, p, h1, h2, h3, h4, _, _⟩ := hok.ok i (by omega)
    rw [if_neg (by omega)] at h4
    obtain ⟨pc, h4⟩ := h4
    have hv : tVals isa prog (T isa prog a0 i) = (isa.srcs inst).map (T isa prog a0 i).reg := by unfold tVals; rw [h1]
    rw [hv] at h2 h3 h4
    have hs : Seq.step isa prog (T isa prog a0 i) = .ok (T isa prog a0 (i + 1), false) := by
      unfold Seq.step; rw [h1]; dsimp only; unfold Seq.effect; dsimp only; rw [h2]; dsimp only; rw [h3]
      obtain ⟨outs, m⟩ := p
      dsimp only; rw [h4]; dsimp only
      simp only [T, tNext, tOut, tDsts, tPc]; rw [h1]; dsimp only; rw [h3, h4]
    simp only [Option.bind_some]; rw [hs]

omit [DecidableEq A] in
/-- a lost instruction is never completed -/
theorem lost_not_done (hw : WF s) (hl : s.lost ≠ none) : ¬ s.done := by
  intro hd
  cases h : s.lost with
  | none => exact hl h
  | some i =>
    obtain ⟨h1, h2, _⟩ := hw.lostW i h
    have := done_retired hw hd.2 i h1
    rw [h2] at this; simp at this

theorem lost_run (init : Nat → V) (ls : List Label) (hw : WF s) (hl : s.lost ≠ none)
    (hr : run isa prog init limit s ls = some s') : s'.lost ≠ none ∧ s'.inflightCount ≠ 0 := by
  cases h : s.lost with
  | none => exact absurd h hl
  | some i =>
    have hf := (hw.lostW i h).2.2.1
    have h2 := stopped_run init ls hw hf hr
    have hw' := wf_run isa prog init limit ls hw hr
    have h3 : s'.lost ≠ none := by rw [h2.2.2]; exact hl
    refine ⟨h3, fun hc => lost_not_done hw' h3 ⟨h2.2.1, hc⟩⟩

/-- after a fault: no more than this many steps -/
def faultWeight (s : St I V A B) : Nat := weight s + (if s.front = .stopped then 0 else 1)

theorem fetch_fault (init : Nat → V) {e : Err} (h : s.fault = some e) :
    fetchStep isa prog init limit s = { s with front := .stopped } := by
  unfold fetchStep; rw [h]

theorem fault_keep (init : Nat → V) {e : Err} (h : s.fault = some e) (l : Label)
    (hs : step isa prog init limit s l = some s') : s'.fault = some e := by
  have hdc : ∀ (t : St I V A B) i bg, (decr t i bg).fault = t.fault := by
    intro t i bg; unfold decr; dsimp only; split <;> rfl
  have hsf : ∀ x, setFault s.fault x = some e := by intro x; rw [h]; rfl
  cases l with
  | fetch =>
    simp only [step] at hs
    split at hs
    · injection hs with hs; subst hs; rw [fetch_fault init h]; exact h
    · simp at hs
  | dep =>
    simp only [step] at hs
    split at hs
    · injection hs with hs; subst hs; unfold depStep; dsimp only; split <;> exact h
    · simp at hs
  | dispatched =>
    simp only [step] at hs
    split at hs
    · injection hs with hs; subst hs; rw [hdc]; exact h
    · simp at hs
  | resolve =>
    simp only [step] at hs
    split at hs
    · split at hs
      · injection hs with hs; subst hs; unfold resolveStep
        split
        · exact h
        · exact h
        · exact hsf _
      · simp at hs
    · simp at hs
  | exec i bg =>
    simp only [step] at hs
    split at hs
    · injection hs with hs; subst hs; unfold execStep; dsimp only
      rw [h]
    · simp at hs
  | asyncDone i =>
    simp only [step] at hs
    split at hs
    · injection hs with hs; subst hs; exact h
    · simp at hs
  | notify i =>
    simp only [step] at hs
    split at hs
    · injection hs with hs; subst hs; unfold notifyStep; split
      · exact h
      · rw [hdc]; exact h
    · simp at hs
  | retire i =>
    simp only [step] at hs
    split at hs
    · injection hs with hs; subst hs; exact h
    · simp at hs

theorem front_step (init : Nat → V) (l : Label) (hf : s.front = .stopped)
    (hs : step isa prog init limit s l = some s') : s'.front = .stopped := (stopped_step init hf l hs).2.1

/-- nothing is lost once there is a fault -/
theorem lost_keep (init : Nat → V) {e : Err} (h : s.fault = some e) (l : Label)
    (hs : step isa prog init limit s l = some s') : s'.lost = s.lost := by
  have hdc : ∀ (t : St I V A B) i bg, (decr t i bg).lost = t.lost := by
    intro t i bg; unfold decr; dsimp only; split <;> rfl
  cases l with
  | fetch =>
    simp only [step] at hs
    split at hs
    · injection hs with hs; subst hs; rw [fetch_fault init h]
    · simp at hs
  | dep =>
    simp only [step] at hs
    split at hs
    · injection hs with hs; subst hs; unfold depStep; dsimp only; split <;> rfl
    · simp at hs
  | dispatched =>
    simp only [step] at hs
    split at hs
    · injection hs with hs; subst hs; rw [hdc]
    · simp at hs
  | resolve =>
    simp only [step] at hs
    split at hs
    · split at hs
      · injection hs with hs; subst hs; unfold resolveStep; split <;> rfl
      · simp at hs
    · simp at hs
  | exec i bg =>
    simp only [step] at hs
    split at hs
    · injection hs with hs; subst hs; unfold execStep; dsimp only
      rw [h]
    · simp at hs
  | asyncDone i =>
    simp only [step] at hs
    split at hs
    · injection hs with hs; subst hs; rfl
    · simp at hs
  | notify i =>
    simp only [step] at hs
    split at hs
    · injection hs with hs; subst hs; unfold notifyStep; split
      · rfl
      · rw [hdc]
    · simp at hs
  | retire i =>
    simp only [step] at hs
    split at hs
    · injection hs with hs; subst hs; rfl
    · simp at hs

theorem faultWeight_step (init : Nat → V) (hw : WF s) {e : Err} (h : s.fault = some e) (l : Label)
    (hs : step isa prog init limit s l = some s') : faultWeight s' < faultWeight s := by
  by_cases hl : l = .fetch
  · subst hl
    simp only [step] at hs
    split at hs
    · rename_i hc; injection hs with hs; subst hs; rw [fetch_fault init h]
      unfold faultWeight; rw [if_pos rfl, if_neg (by rw [hc.2]; simp)]
      unfold weight; dsimp only; rw [hc.2]; simp [Front.weight]
    · simp at hs
  · have h1 := weight_step init hw l hl hs
    unfold faultWeight
    by_cases hf : s.front = .stopped
    · rw [if_pos (front_step init l hf hs), if_pos hf]; omega
    · rw [if_neg hf]; split <;> omega

theorem fault_run (init : Nat → V) : ∀ (ls : List Label) {s s' : St I V A B} {e : Err}, WF s → s.fault = some e →
    run isa prog init limit s ls = some s' → ls.length ≤ faultWeight s ∧ s'.fault = some e ∧ s'.lost = s.lost := by
  intro ls
  induction ls with
  | nil => intro s s' e hw h hr; simp only [run] at hr; injection hr with hr; subst hr; exact ⟨by simp, h, rfl⟩
  | cons l ls ih =>
    intro s s' e hw h hr
    simp only [run] at hr
    split at hr
    · simp at hr
    · rename_i s1 hs
      obtain ⟨h1, h2, h3⟩ := ih (wf_step isa prog init limit hw l hs) (fault_keep init h l hs) hr
      have h4 := faultWeight_step init hw h l hs
      exact ⟨by simp only [List.length_cons]; omega, h2, by rw [h3, lost_keep init h l hs]⟩

/-- an unretired instruction can always be brought closer to retirement, without fetching -/
theorem progress_nofetch (init : Nat → V) (hw : WF s) (hl : s.lost = none) {i : Nat} (hi : i < s.n)
    (hu : (s.ent i).status ≠ .retired) : ∃ l s', step isa prog init limit s l = some s' ∧ l ≠ .fetch := by
  cases hm : s.main with
  | dispatching j p =>
    cases p with
    | nil => exact ⟨.dispatched, _, by simp only [step]; rw [hm], by simp⟩
    | cons d ds => exact ⟨.dep, _, by simp only [step]; rw [hm], by simp⟩
  | retiring j =>
    obtain ⟨hi, hst⟩ := hw.mainR j hm
    by_cases hdp : (s.ent j).dependents = []
    · exact ⟨.retire j, _, by simp only [step]; rw [if_pos ⟨hi, hst, hdp⟩], by simp⟩
    · exact ⟨.notify j, _, by simp only [step]; rw [if_pos ⟨hi, hst, hdp⟩], by simp⟩
  | idle => exact unretired_step init hw hl hm i hi hu

end Spf.Machine
