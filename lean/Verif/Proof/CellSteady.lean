import Verif.Proof.CellMachine
import Verif.Spec.CellSteady
/-! Programs of steady instructions keep their noise bounded, whatever their length. -/
namespace Spf.Cells
open Spf.Spec Spf.Cpu Spf.Fhe Spf.CtExec Spf.Fluent

/-- jobs with bounded noise -/
def SteadyJob (mul : Bool) : Job → Prop
  | .circuit _ _ ins => ins.length ≤ 257
  | .not _ => True
  | .mul a _ => mul = true ∧ a.length ≤ 128
  | _ => False

theorem circuitJob_steady {mul opt : Bool} {gen : Option (List BddFn)} {arity : Nat} {ins : List Nat} {rs : List Nat → List CReg} (h : arity ≤ 257) {job : Job} {rs' : List Nat → List CReg}
    (hj : circuitJob opt gen arity ins rs = .ok (.spawn job rs')) : SteadyJob mul job := by
  unfold circuitJob at hj
  cases gen with
  | none => cases hj
  | some fs =>
    simp only at hj
    by_cases ha : arity ≠ ins.length
    · rw [if_pos ha] at hj; cases hj
    · rw [if_neg ha] at hj
      cases hj
      simp only [SteadyJob]; omega

theorem onPlain_done {r : Except Err (List Reg)} {job : Job} {rs : List Nat → List CReg} : onPlain r ≠ .ok (.spawn job rs) := by
  cases r <;> (intro h; cases h)

theorem bin_steady {mul : Bool} {f : Bin} (hx : f ≠ .xor) (hm : f = .mul → mul = true) {a b : CReg} {job : Job} {rs : List Nat → List CReg} (h : bin f a b = .ok (.spawn job rs)) : SteadyJob mul job := by
  unfold bin at h
  cases hc : checkWidth a b with
  | error e => rw [hc] at h; cases h
  | ok u =>
    rw [hc, bind_ok] at h
    obtain ⟨p1, p2, p3⟩ := checkWidth_pos hc
    have hmain : (match f with
        | .mul => Cells.mul a b
        | .xor => .ok (.spawn (.xor (lift a) (lift b)) fun os => [.cells os])
        | f =>
          match binGen a.width f with
          | none => .error .panic
          | some (opt, gen) => circuitJob opt gen (2 * a.width) (zipNodes (lift a) (lift b)) (binRes f)) = .ok (.spawn job rs) → SteadyJob mul job := by
      intro h
      cases f with
      | xor => exact absurd rfl hx
      | mul =>
        simp only [Cells.mul] at h
        cases hr : Mul.appendUintMultiply (List.replicate a.width false) (List.replicate a.width false) with
        | none => rw [hr] at h; cases h
        | some r =>
          rw [hr] at h
          cases a with
          | cells cs => cases h; exact ⟨hm rfl, p3⟩
          | plain x w => cases h; exact ⟨hm rfl, by rw [lift_len, ← p1]; exact p3⟩
      | add => exact circuitJob_steady (by omega) h
      | sub => exact circuitJob_steady (by omega) h
      | and => exact circuitJob_steady (by omega) h
      | or => exact circuitJob_steady (by omega) h
      | cmp c => exact circuitJob_steady (by omega) h
    cases a with
    | plain x w =>
      cases b with
      | plain y w' => exact absurd h onPlain_done
      | cells cs => exact hmain h
    | cells cs => exact hmain h

theorem alu_steady {mul : Bool} {i : Inst} (hi : Steady mul i) {vs : List CReg} {job : Job} {rs : List Nat → List CReg} (h : alu i vs = .ok (.spawn job rs)) : SteadyJob mul job := by
  have ext_no : ∀ s v w, ext s v w ≠ .ok (.spawn job rs) := by
    intro s v w h
    cases v with
    | plain x y => exact onPlain_done h
    | cells cs =>
      simp only [ext] at h
      split at h
      · cases h
      · split at h
        · split at h <;> cases h
        · cases h
  have trunc_no : ∀ v w, trunc v w ≠ .ok (.spawn job rs) := by
    intro v w h
    cases v with
    | plain x y => exact onPlain_done h
    | cells cs =>
      simp only [trunc] at h
      split at h <;> cases h
  have not_ok : ∀ v, Cells.not v = .ok (.spawn job rs) → SteadyJob mul job := by
    intro v h
    cases v with
    | plain x y => exact absurd h onPlain_done
    | cells cs => cases h; trivial
  have neg_no : ∀ v, Cells.neg v ≠ .ok (.spawn job rs) := by
    intro v h
    cases v with
    | plain x y => exact absurd h onPlain_done
    | cells cs => cases h
  have carry_ok : ∀ sub a b c, carry sub a b c = .ok (.spawn job rs) → SteadyJob mul job := by
    intro sub a b c h
    unfold carry at h
    cases hc : checkWidth a b with
    | error e => rw [hc] at h; cases h
    | ok u =>
      rw [hc, bind_ok] at h
      obtain ⟨p1, p2, p3⟩ := checkWidth_pos hc
      by_cases hw : c.width ≠ 1
      · rw [if_pos hw] at h; cases h
      · rw [if_neg hw] at h
        cases a <;> cases b <;> cases c <;> first
          | exact absurd h onPlain_done
          | exact circuitJob_steady (by omega) h
  obtain ⟨h1, h2⟩ := hi
  obtain ⟨op, args⟩ := i
  simp only [List.mem_cons, List.not_mem_nil, or_false, not_or] at h1 h2
  unfold alu at h
  cases op <;> simp only [reduceCtorEq, not_true_eq_false, false_and, and_false, IsEmpty.forall_iff, forall_const] at h1 h2
  all_goals
    match vs, h with
    | [], h => first | (exact absurd h onPlain_done) | cases h
    | [a], h => first | exact absurd h (trunc_no _ _) | exact absurd h (ext_no _ _ _) | exact not_ok _ h | exact absurd h (neg_no _) | cases h
    | [a, b], h => first | (exact bin_steady (by intro h; cases h) (by intro h; first | exact h2 | cases h) h) | cases h
    | [a, b, c], h => first | exact carry_ok _ _ _ _ h | cases h
    | a :: b :: c :: d :: l, h => cases h

theorem step_steady {mul : Bool} {prog : Nat → Except Err Inst} {s s' : CState} (hp : ∀ i, prog s.pc = .ok i → Steady mul i) {job : Job} {outs : List Nat} {halted : Bool}
    (h : step prog s = .ok (some (job, outs), s', halted)) : SteadyJob mul job := by
  unfold step at h
  cases hi : prog s.pc with
  | error e => rw [hi] at h; cases h
  | ok i =>
    rw [hi] at h
    simp only at h
    cases hac : i.access ((i.srcs.map s.reg).map CReg.shape) with
    | error e => rw [hac] at h; cases h
    | ok l =>
      rw [hac] at h
      simp only at h
      cases hex : exec i (i.srcs.map s.reg) s.mem s.fresh with
      | error e => rw [hex] at h; cases h
      | ok res =>
        obtain ⟨job', rs, m'⟩ := res
        rw [hex] at h
        simp only at h
        have hj : job' = some (job, outs) := by
          cases hn : i.next s.pc ((i.srcs.map s.reg).map CReg.shape) with
          | ok pc' => rw [hn] at h; simp only [Except.ok.injEq, Prod.mk.injEq] at h; exact h.1
          | error e =>
            rw [hn] at h
            cases e <;> simp only [Except.ok.injEq, Prod.mk.injEq, reduceCtorEq] at h
            exact h.1
        subst hj
        have general : (match alu i (i.srcs.map s.reg) with
            | .error e => .error e
            | .ok (.done rs) => .ok (none, rs, s.mem)
            | .ok (.spawn job rs) => .ok (some (job, List.range' s.fresh job.size), rs (List.range' s.fresh job.size), s.mem) : Except Err (Option (Job × List Nat) × List CReg × CView)) =
            .ok (some (job, outs), rs, m') → SteadyJob mul job := by
          intro h
          cases ha : alu i (i.srcs.map s.reg) with
          | error e => rw [ha] at h; cases h
          | ok act =>
            rw [ha] at h
            cases act with
            | done rs => cases h
            | spawn j rs => cases h; exact alu_steady (hp i hi) ha
        unfold exec at hex
        cases hop : i.op
        case load =>
          rw [hop] at hex
          simp only at hex
          split at hex
          · cases hex
          · split at hex <;> cases hex
        case store =>
          rw [hop] at hex
          simp only at hex
          split at hex
          · cases hex
          · split at hex
            · cases hex
            · split at hex <;> cases hex
        all_goals
          rw [hop] at hex
          exact general hex

theorem worst_bound {nz : Nat → Nat} {N : Nat} (h : ∀ c, nz c ≤ N) (cs : List Nat) : worst nz cs ≤ N := by
  induction cs with
  | nil => exact Nat.zero_le _
  | cons c cs ih => exact Nat.max_le.2 ⟨h c, ih⟩

variable {W : Nat} {P : EvalParams} {ν : NoiseLevels}

theorem job_steady {mul : Bool} {N : Nat} (hN : steadyNoise W P ν mul ≤ N) (hb : N + ksNoise W P ν < bootLimit W P ν) {nz : Nat → Nat} (hnz : ∀ c, nz c ≤ N) {job : Job} (h : SteadyJob mul job) :
    ∃ B, Job.noise W P ν nz job = some B ∧ B ≤ N := by
  have key : ∀ k, k ≤ (if mul then 512 else 257) → k * muxNoise W P ν (bootNoise W P ν) ≤ N := fun k hk => Nat.le_trans (Nat.mul_le_mul_right _ hk) hN
  cases job with
  | circuit opt fs ins =>
    have := worst_bound hnz ins
    refine ⟨_, by simp only [Job.noise]; rw [if_pos (by omega)], key _ ?_⟩
    have : ins.length ≤ 257 := h
    split <;> omega
  | xor a b => exact absurd h id
  | cmux s a b => exact absurd h id
  | not a => exact ⟨_, rfl, worst_bound hnz a⟩
  | mul a b =>
    obtain ⟨rfl, h2⟩ := h
    have hk := key (4 * a.length) (by rw [if_pos rfl]; omega)
    have := worst_bound hnz (a ++ b)
    refine ⟨_, by simp only [Job.noise]; rw [if_pos ⟨by omega, by omega⟩], hk⟩

theorem steady_run {mul : Bool} {N : Nat} (hN : steadyNoise W P ν mul ≤ N) (hb : N + ksNoise W P ν < bootLimit W P ν) {prog : Nat → Except Err Inst} (hp : ∀ pc i, prog pc = .ok i → Steady mul i) :
    ∀ (k : Nat) {s : CState} {μ : Nat → Bool} {nz : Nat → Nat} {b : Seq.Arch Reg Nat (Option (Byte Bool))}, 2 ≤ s.fresh → (∀ c, CState.Uses s c → c < s.fresh) → μ 0 = false → μ 1 = true → (∀ c, nz c ≤ N) →
    Seq.Returns parasol prog k (CState.archOf μ s) b → ∃ sf nz', noiseRun W P ν prog k s nz = some (sf, nz') ∧ ∀ c, nz' c ≤ N
  | 0, s, μ, nz, b, _, _, _, _, _, h => absurd h id
  | k + 1, s, μ, nz, b, hf, hu, h0, h1, hnz, h => by
    rw [noiseRun]
    cases hst : step prog s with
    | error e => simp only [Seq.Returns, step_err h0 h1 hst] at h
    | ok res =>
      obtain ⟨job, s', halted⟩ := res
      obtain ⟨f1, f2, f3, f4⟩ := step_sim h0 h1 hf hu hst
      simp only [Seq.Returns, f1] at h
      have hu' : ∀ c, CState.Uses s' c → c < s'.fresh := by
        intro c hcu
        rw [f3]
        rcases f2 c hcu with (h | h) | ⟨j, outs, h, hco⟩
        · have := hu c h; omega
        · omega
        · obtain ⟨o1, _, _⟩ := f4 j outs h
          subst h
          simp only [allocated]
          rw [o1] at hco ⊢
          obtain ⟨i, hi, rfl⟩ := List.mem_range'.1 hco
          rw [List.length_range']; omega
      have ha0 : after μ s job 0 = false ∧ after μ s job 1 = true := by
        cases job with
        | none => exact ⟨h0, h1⟩
        | some jo => exact ⟨by simp only [after]; rw [upd_old (by omega)]; exact h0, by simp only [after]; rw [upd_old (by omega)]; exact h1⟩
      cases job with
      | none =>
        simp only
        cases halted with
        | true =>
          simp only at h
          simp only [if_true]
          rw [if_pos h.1]; exact ⟨_, _, rfl, hnz⟩
        | false =>
          simp only at h
          simp only [Bool.false_eq_true, if_false]
          exact steady_run hN hb hp k (by rw [f3]; omega) hu' ha0.1 ha0.2 hnz h
      | some jo =>
        obtain ⟨j, outs⟩ := jo
        obtain ⟨B, b1, b2⟩ := job_steady hN hb hnz (step_steady (hp s.pc) hst)
        simp only [b1]
        have hnz' : ∀ c, (if c ∈ outs then B else nz c) ≤ N := by
          intro c
          split
          · exact b2
          · exact hnz c
        cases halted with
        | true =>
          simp only at h
          simp only [if_true]
          rw [if_pos h.1]; exact ⟨_, _, rfl, hnz'⟩
        | false =>
          simp only at h
          simp only [Bool.false_eq_true, if_false]
          exact steady_run hN hb hp k (by rw [f3]; omega) hu' ha0.1 ha0.2 hnz' h

end Spf.Cells
