import Verif.Model.StoredProg
import Verif.Spec.StoredProg
import Verif.Proof.MachineTop
import Verif.Proof.MachineLive
/-! Programs that keep their code: fetching from memory is fetching from a fixed program. -/
namespace Spf.Machine
open Spf.Cpu (Err)
open Spf.Seq (Arch assign Local Slow Returns Steady StoredReturns KeepsCode)

variable {I V A B : Type} [DecidableEq A] {isa : Isa I V A B} {key : I → Nat}

/-- An address of the memory holds what it holds in program order after some prefix of the instructions. -/
theorem mem_prefix {prog : Nat → Except Err I} {a0 : Arch V A B} {s : St I V A B} (hw : WF s) (h : Sem isa prog a0 s) (x : A) :
    ∃ j, j ≤ s.n ∧ s.mem x = (T isa prog a0 j).mem x := by
  by_cases hex : ∃ i, i < s.n ∧ x ∈ (s.ent i).addrs ∧ ¬ Ex s i
  · obtain ⟨j, ⟨hj, hxj, hej⟩, hmin⟩ := exists_min hex
    refine ⟨j, Nat.le_of_lt hj, h.mem x j (Nat.le_of_lt hj) (fun i hi hxi => ?_) (fun i hji hi hxi he => ?_)⟩
    · exact Classical.byContradiction fun hne => hmin i hi ⟨by omega, hxi, hne⟩
    · by_cases hij : i = j
      · subst hij; exact hej he
      · exact hej (acc_order hw h x i hi hxi (fun d hd => need_ex hw hi hd he) j (by omega) hxj)
  · exact ⟨s.n, Nat.le_refl _, h.mem x s.n (Nat.le_refl _) (fun i hi hxi => Classical.byContradiction fun hne => hex ⟨i, hi, hxi, hne⟩) (fun i h1 h2 => by omega)⟩
where
  exists_min {P : Nat → Prop} (h : ∃ i, P i) : ∃ j, P j ∧ ∀ i, i < j → ¬ P i := by
    obtain ⟨i, hi⟩ := h
    induction i using Nat.strongRecOn with
    | ind i ih =>
      by_cases hm : ∃ k, k < i ∧ P k
      · obtain ⟨k, hk, hp⟩ := hm; exact ih k hk hp
      · exact ⟨i, hi, fun k hk hp => hm ⟨k, hk, hp⟩⟩

omit [DecidableEq A] in
theorem T_shift {prog : Nat → Except Err I} (a : Arch V A B) : ∀ k, T isa prog (tNext isa prog a) k = T isa prog a (k + 1)
  | 0 => rfl
  | k + 1 => congrArg (tNext isa prog) (T_shift a k)

omit [DecidableEq A] in
/-- one step of program order -/
theorem tNext_step {prog : Nat → Except Err I} {a a' : Arch V A B} {halted : Bool} (h : Seq.step isa prog a = .ok (a', halted)) :
    (tNext isa prog a).mem = a'.mem ∧ (halted = false → tNext isa prog a = a') := by
  unfold Seq.step at h
  cases hp : prog a.pc with
  | error e => rw [hp] at h; cases h
  | ok inst =>
    rw [hp] at h; simp only [Seq.effect] at h
    cases hacc : isa.access inst ((isa.srcs inst).map a.reg) with
    | error e => rw [hacc] at h; cases h
    | ok l =>
      rw [hacc] at h; simp only at h
      cases hex : isa.exec inst ((isa.srcs inst).map a.reg) a.mem with
      | error e => rw [hex] at h; cases h
      | ok p =>
        obtain ⟨outs, m'⟩ := p
        rw [hex] at h; simp only at h
        cases hn : isa.next inst a.pc ((isa.srcs inst).map a.reg) with
        | ok pc' =>
          rw [hn] at h; simp only at h; cases h
          refine ⟨by simp [tNext, tOut, hp, hex], fun _ => by simp [tNext, tOut, tDsts, tPc, hp, hex, hn]⟩
        | error e =>
          rw [hn] at h
          cases e <;> first | (cases h; done) | (cases h; exact ⟨by simp [tNext, tOut, hp, hex], by intro h; cases h⟩)

omit [DecidableEq A] in
theorem seq_step_congr {p p' : Nat → Except Err I} {a : Arch V A B} (h : p a.pc = p' a.pc) : Seq.step isa p a = Seq.step isa p' a := by
  unfold Seq.step; rw [h]

variable {fetch : (A → B) → Nat → Except Err I} {bytes : Nat → List A} {code : A → Prop}

omit [DecidableEq A] in
/-- A program that keeps its code runs as the program read from any memory with this code. -/
theorem stored_returns (hloc : ∀ m m' pc, (∀ x ∈ bytes pc, m x = m' x) → fetch m pc = fetch m' pc) (m0 : A → B) : ∀ (n : Nat) (a b : Arch V A B),
    (∀ x, code x → a.mem x = m0 x) → StoredReturns isa fetch n a b → KeepsCode isa fetch bytes code n a →
    Returns isa (fetch m0) n a b ∧ (∀ j, j < n → ∀ x ∈ bytes (T isa (fetch m0) a j).pc, code x) ∧ ∀ j, j ≤ n → ∀ x, code x → (T isa (fetch m0) a j).mem x = m0 x
  | 0, _, _, _, h, _ => absurd h id
  | n + 1, a, b, hm, h, hk => by
    have hf : fetch a.mem a.pc = fetch m0 a.pc := hloc _ _ _ fun x hx => hm x (hk.1 x hx)
    have hs := seq_step_congr (isa := isa) (p := fetch a.mem) (p' := fetch m0) (a := a) hf
    have hk2 := hk.2
    unfold StoredReturns at h
    unfold Returns
    rw [hs] at h hk2
    cases hst : Seq.step isa (fetch m0) a with
    | error e => rw [hst] at h; exact absurd h id
    | ok r =>
      obtain ⟨a', halted⟩ := r
      rw [hst] at h hk2
      obtain ⟨t1, t2⟩ := tNext_step hst
      have hm' : ∀ x, code x → a'.mem x = m0 x := fun x hx => (hk2.1 x hx).trans (hm x hx)
      cases halted with
      | true =>
        obtain ⟨rfl, rfl⟩ := h
        refine ⟨⟨rfl, rfl⟩, fun j hj => ?_, fun j hj => ?_⟩
        · obtain rfl : j = 0 := by omega
          exact hk.1
        · rcases Nat.eq_zero_or_pos j with rfl | h0
          · exact hm
          · obtain rfl : j = 1 := by omega
            intro x hx
            show (tNext isa (fetch m0) a).mem x = _
            rw [t1]; exact hm' x hx
      | false =>
        obtain ⟨i1, i2, i3⟩ := stored_returns hloc m0 n a' b hm' h hk2.2
        have e := t2 rfl
        refine ⟨i1, fun j hj => ?_, fun j hj => ?_⟩
        · match j, hj with
          | 0, _ => exact hk.1
          | j + 1, hj => rw [← T_shift, e]; exact i2 j (by omega)
        · match j, hj with
          | 0, _ => exact hm
          | j + 1, hj => rw [← T_shift, e]; exact i3 j (by omega)

theorem step_congr {p p' : Nat → Except Err I} {init : Nat → V} {limit : Option Nat} {s : St I V A B} (l : Label) (h : s.front = .fetch → p s.pc = p' s.pc) :
    step isa p init limit s l = step isa p' init limit s l := by
  cases l with
  | fetch =>
    simp only [step]
    by_cases hc : s.main = .idle ∧ s.front = .fetch
    · rw [if_pos hc, if_pos hc]
      unfold fetchStep
      rw [h hc.2]
    · rw [if_neg hc, if_neg hc]
  | _ => rfl

/-- Every run that fetches from memory is a run of the fixed program. -/
theorem runM_eq (hfl : ∀ m m' pc, (∀ x ∈ bytes pc, m x = m' x) → fetch m pc = fetch m' pc) {a0 : Arch V A B} {limit : Option Nat} (hloc : Local isa key)
    (hlim : ∀ inst vs, limit.any (isa.gas inst vs > ·) = false) (N : Nat) (W : Nat → Slow A) (hok : Ok isa (fetch a0.mem) key a0 N W) (hW0 : W 0 = ⟨fun _ => false, fun _ => false⟩)
    (hpc : ∀ j, j < N → ∀ x ∈ bytes (T isa (fetch a0.mem) a0 j).pc, code x) (hmem : ∀ j, j ≤ N → ∀ x, code x → (T isa (fetch a0.mem) a0 j).mem x = a0.mem x) :
    ∀ (ls : List Label) {s : St I V A B}, WF s → Sem isa (fetch a0.mem) a0 s → LateInv isa (fetch a0.mem) a0 W N s →
      runM isa fetch a0.reg limit s ls = run isa (fetch a0.mem) a0.reg limit s ls ∧
      ∀ s', runM isa fetch a0.reg limit s ls = some s' → ∀ l, stepM isa fetch a0.reg limit s' l = step isa (fetch a0.mem) a0.reg limit s' l := by
  have hone : ∀ {s : St I V A B}, WF s → Sem isa (fetch a0.mem) a0 s → LateInv isa (fetch a0.mem) a0 W N s → ∀ l,
      stepM isa fetch a0.reg limit s l = step isa (fetch a0.mem) a0.reg limit s l := by
    intro s hw hsem hl l
    refine step_congr l fun hf => hfl _ _ _ fun x hx => ?_
    rw [hsem.pcF hf] at hx
    have hcx := hpc _ (hl.nlt hf) x hx
    obtain ⟨j, hj, e⟩ := mem_prefix hw hsem x
    rw [e]
    exact hmem j (Nat.le_trans hj hl.nle) x hcx
  intro ls
  induction ls with
  | nil =>
    intro s hw hsem hl
    refine ⟨rfl, fun s' h => ?_⟩
    cases h
    exact hone hw hsem hl
  | cons l ls ih =>
    intro s hw hsem hl
    simp only [runM, run]
    rw [hone hw hsem hl l]
    cases h1 : step isa (fetch a0.mem) a0.reg limit s l with
    | none => exact ⟨rfl, fun s' h => by cases h⟩
    | some s1 =>
      have ht := late_timely N W hok hW0 hw hsem hl l h1
      have hl1 := late_step hloc hlim N W hok hW0 hw hsem hl l h1
      exact ih (wf_step isa _ a0.reg limit hw l h1) (sem_step hloc limit hw hsem l ht h1 hl1.noFault) hl1

end Spf.Machine
