import Verif.Props.Machine
import Verif.Proof.Alu
import Verif.Model.GasReport
set_option autoImplicit false
/-! C121: the gas that a run reports. -/
namespace Spf.Props
open Spf.Cpu Spf.Machine
open Spf.Seq (Arch Returns Steady NoBackground Slow gasUsed)

/-! ## The counter along a run -/

theorem step_gas {init : Nat → Reg} {prog : Nat → Except Err Inst} {limit : Option Nat} {s s' : Proc} {l : Label}
    (h : step parasol prog init limit s l = some s') : s.gas ≤ s'.gas ∧ (l ≠ .resolve → s'.gas = s.gas) := by
  by_cases h1 : l = .resolve
  · subst h1
    refine ⟨?_, fun h => absurd rfl h⟩
    simp only [step] at h
    cases hf : s.front with
    | resolve i g =>
      rw [hf] at h
      simp only at h
      by_cases hc : s.main = .idle ∧ drained s = true
      · rw [if_pos hc] at h
        cases h
        unfold resolveStep
        cases hn : parasol.next (s.ent i).inst s.pc (s.srcVals init i) with
        | ok pc' => exact Nat.le_add_right _ _
        | error e => cases e <;> exact Nat.le_refl _
      · rw [if_neg hc] at h; cases h
    | fetch => rw [hf] at h; cases h
    | stopped => rw [hf] at h; cases h
  · have : s'.gas = s.gas := by
      by_cases h2 : l = .fetch
      · subst h2
        simp only [step] at h
        by_cases hc : s.main = .idle ∧ s.front = .fetch
        · rw [if_pos hc] at h
          cases h
          unfold fetchStep St.stop
          repeat' (first | rfl | split | dsimp only)
        · rw [if_neg hc] at h; cases h
      · exact (front_gas_step init l h2 h1 h).2
    exact ⟨Nat.le_of_eq this.symm, fun _ => this⟩

theorem run_gas {init : Nat → Reg} {prog : Nat → Except Err Inst} {limit : Option Nat} : ∀ (ls : List Label) {s s' : Proc},
    run parasol prog init limit s ls = some s' → s.gas ≤ s'.gas := by
  intro ls
  induction ls with
  | nil => intro s s' h; cases h; exact Nat.le_refl _
  | cons l ls ih =>
    intro s s' h
    rw [run] at h
    cases h1 : step parasol prog init limit s l with
    | none => rw [h1] at h; cases h
    | some t => rw [h1] at h; exact Nat.le_trans (step_gas h1).1 (ih h)

theorem count_wrap {init : Nat → Reg} {prog : Nat → Except Err Inst} {limit : Option Nat} : ∀ (ls : List Label) {s s' : Proc},
    run parasol prog init limit s ls = some s' →
    countGas false parasol prog init limit (s.gas % 2 ^ 32) s ls = some (s'.gas % 2 ^ 32) := by
  intro ls
  induction ls with
  | nil => intro s s' h; cases h; rfl
  | cons l ls ih =>
    intro s s' h
    rw [run] at h
    cases h1 : step parasol prog init limit s l with
    | none => rw [h1] at h; cases h
    | some t =>
      rw [h1] at h
      have hg := step_gas h1
      have hi := ih h
      unfold countGas
      simp only [h1]
      by_cases hl : l = .resolve
      · have ha : addGas false (s.gas % 2 ^ 32) (t.gas - s.gas) = some (t.gas % 2 ^ 32) := by
          have h2 : (s.gas % 2 ^ 32 + (t.gas - s.gas)) % 2 ^ 32 = t.gas % 2 ^ 32 := by
            rw [Nat.mod_add_mod, Nat.add_sub_cancel' hg.1]
          unfold addGas
          by_cases hc : s.gas % 2 ^ 32 + (t.gas - s.gas) < 2 ^ 32
          · rw [if_pos hc, ← h2, Nat.mod_eq_of_lt hc]
          · rw [if_neg hc, if_neg (by decide), h2]
        rw [if_pos hl]
        simp only [ha]
        exact hi
      · rw [if_neg hl, ← hg.2 hl]
        exact hi

theorem count_checked {init : Nat → Reg} {prog : Nat → Except Err Inst} {limit : Option Nat} : ∀ (ls : List Label) {s s' : Proc},
    run parasol prog init limit s ls = some s' → s.gas < 2 ^ 32 →
    countGas true parasol prog init limit s.gas s ls = if s'.gas < 2 ^ 32 then some s'.gas else none := by
  intro ls
  induction ls with
  | nil => intro s s' h hs; cases h; rw [if_pos hs]; rfl
  | cons l ls ih =>
    intro s s' h hs
    rw [run] at h
    cases h1 : step parasol prog init limit s l with
    | none => rw [h1] at h; cases h
    | some t =>
      rw [h1] at h
      have hg := step_gas h1
      unfold countGas
      simp only [h1]
      by_cases hl : l = .resolve
      · rw [if_pos hl]
        unfold addGas
        rw [Nat.add_sub_cancel' hg.1]
        by_cases hc : t.gas < 2 ^ 32
        · rw [if_pos hc]
          exact ih h hc
        · rw [if_neg hc, if_pos rfl, if_neg]
          exact fun h' => hc (Nat.lt_of_le_of_lt (run_gas ls h) h')
      · rw [if_neg hl, ← hg.2 hl]
        exact ih h (by rw [hg.2 hl]; exact hs)

/-- **C121, partial.** When the charges of a run add up to less than `2^32`, the gas reported is their sum, with or without
overflow checks, whatever the program, the limit and the schedule. -/
theorem C121_partial (checks : Bool) (prog : Nat → Except Err Inst) (limit : Option Nat) (a : Regs) (ls : List Label) (s : Proc)
    (h : Reaches prog limit a ls s) (hg : s.gas < 2 ^ 32) :
    countGas checks parasol prog a.reg limit 0 (start parasol a.mem a.pc blankEntry) ls = some s.gas := by
  cases checks with
  | false =>
    have := count_wrap ls h
    rw [Nat.mod_eq_of_lt hg] at this
    exact this
  | true =>
    have := count_checked ls h (by show 0 < 2 ^ 32; decide)
    rw [if_pos hg] at this
    exact this

/-- **C121, partial.** In general the gas reported without overflow checks is the sum modulo `2^32`; with overflow checks the
call panics as soon as the sum reaches `2^32`. -/
theorem C121_overflow (prog : Nat → Except Err Inst) (limit : Option Nat) (a : Regs) (ls : List Label) (s : Proc)
    (h : Reaches prog limit a ls s) :
    countGas false parasol prog a.reg limit 0 (start parasol a.mem a.pc blankEntry) ls = some (s.gas % 2 ^ 32) ∧
    (2 ^ 32 ≤ s.gas → countGas true parasol prog a.reg limit 0 (start parasol a.mem a.pc blankEntry) ls = none) := by
  refine ⟨count_wrap ls h, fun hg => ?_⟩
  have := count_checked ls h (by show 0 < 2 ^ 32; decide)
  rw [if_neg (Nat.not_lt.2 hg)] at this
  exact this

theorem gasUsed_le (prog : Nat → Except Err Inst) : ∀ (N : Nat) (a : Regs), gasUsed parasol prog N a ≤ N * 500000 := by
  intro N
  induction N with
  | zero => intro a; exact Nat.zero_le _
  | succ n ih =>
    intro a
    unfold gasUsed
    cases hp : prog a.pc with
    | error e => exact Nat.zero_le _
    | ok inst =>
      cases hs : Seq.step parasol prog a with
      | error e => exact Nat.zero_le _
      | ok r =>
        have h1 := ih r.1
        have h2 := gas_le inst ((parasol.srcs inst).map a.reg)
        show parasol.gas inst _ + gasUsed parasol prog n r.1 ≤ _
        have h3 : parasol.gas inst ((parasol.srcs inst).map a.reg) ≤ 500000 := h2
        omega

/-- **C121 for short programs**: a steady program of at most 8589 instructions reports, under every schedule, exactly the gas of
its instructions in program order. -/
theorem C121_short (checks : Bool) (prog : Nat → Except Err Inst) (limit : Option Nat) (a b : Regs) (N : Nat) (hN : N ≤ 8589)
    (hlim : ∀ L, limit = some L → 500000 ≤ L) (hr : Returns parasol prog N a b) (hst : Steady parasol prog gasKey N a .none)
    (ls : List Label) (s : Proc) (h : Reaches prog limit a ls s) (hd : s.done) :
    countGas checks parasol prog a.reg limit 0 (start parasol a.mem a.pc blankEntry) ls = some (gasUsed parasol prog N a) := by
  have h1 := C42_partial prog limit a b N hlim hr hst ls s h hd
  have h2 := gasUsed_le prog N a
  rw [← h1] at h2 ⊢
  exact C121_partial checks prog limit a ls s h (by omega)

/-- the loop of `Verif.Props.Machine` reports 12 units -/
example : (∃ b, Returns parasol (code exLoop) 13 exStart b) ∧ Steady parasol (code exLoop) gasKey 13 exStart .none ∧
    gasUsed parasol (code exLoop) 13 exStart = 12 := by
  refine ⟨?_, Seq.steady_of_B _ _ _ (by decide +kernel), by decide +kernel⟩
  obtain ⟨b, h1, _⟩ := Seq.returns_of_any (isa := parasol) (prog := code exLoop) (n := 13) (a := exStart)
    (f := fun _ => true) (by decide +kernel)
  exact ⟨b, h1⟩

/-! ## A long loop -/

/-- Counts register 1 down from `K`. -/
def loopProg (K : Nat) : List Inst := [⟨.loadI, [1, K, 32]⟩, ⟨.loadI, [3, 1, 32]⟩, ⟨.sub, [1, 1, 3]⟩,
  ⟨.branchNonZero, [1, -8]⟩, ⟨.ret, []⟩]

/-- registers with one of them replaced -/
def setReg (f : Nat → Reg) (r : Nat) (v : Reg) : Nat → Reg := fun x => if x = r then v else f x

theorem effect_ok {inst : Inst} {a : Regs} {outs : List Reg} {l : List Nat}
    (ha : parasol.access inst ((parasol.srcs inst).map a.reg) = .ok l)
    (hx : parasol.exec inst ((parasol.srcs inst).map a.reg) a.mem = .ok (outs, a.mem)) :
    Seq.effect parasol inst a = .ok ⟨Seq.assign a.reg .default outs 0 (parasol.dsts inst), a.mem, a.pc⟩ := by
  unfold Seq.effect; simp only [ha, hx]; rfl

theorem seqStep_ok {prog : Nat → Except Err Inst} {inst : Inst} {a b : Regs} {pc' : Nat} (hp : prog a.pc = .ok inst)
    (he : Seq.effect parasol inst a = .ok b) (hn : parasol.next inst a.pc ((parasol.srcs inst).map a.reg) = .ok pc') :
    Seq.step parasol prog a = .ok (⟨b.reg, b.mem, pc'⟩, false) := by
  unfold Seq.step; simp only [hp, he, hn]

theorem step_halt {prog : Nat → Except Err Inst} {inst : Inst} {a b : Regs} (hp : prog a.pc = .ok inst)
    (he : Seq.effect parasol inst a = .ok b) (hn : parasol.next inst a.pc ((parasol.srcs inst).map a.reg) = .error .halt) :
    Seq.step parasol prog a = .ok (b, true) := by
  unfold Seq.step; simp only [hp, he, hn]

theorem returns_next {prog : Nat → Except Err Inst} {a a' b : Regs} {n : Nat} (h : Seq.step parasol prog a = .ok (a', false))
    (hr : Returns parasol prog n a' b) : Returns parasol prog (n + 1) a b := by
  unfold Returns; rw [h]; exact hr

theorem returns_last {prog : Nat → Except Err Inst} {a b : Regs} (h : Seq.step parasol prog a = .ok (b, true)) :
    Returns parasol prog 1 a b := by
  unfold Returns; rw [h]; exact ⟨rfl, rfl⟩

theorem noBackground_next {prog : Nat → Except Err Inst} {inst : Inst} {a a' : Regs} {n : Nat} {d : Bool} (hp : prog a.pc = .ok inst)
    (h : Seq.step parasol prog a = .ok (a', d)) (hs : parasol.async inst ((parasol.srcs inst).map a.reg) = false)
    (hr : NoBackground parasol prog n a') : NoBackground parasol prog (n + 1) a := by
  unfold NoBackground; simp only [hp, h]; exact ⟨hs, hr⟩

theorem gasUsed_next {prog : Nat → Except Err Inst} {inst : Inst} {a a' : Regs} {n : Nat} {d : Bool} (hp : prog a.pc = .ok inst)
    (h : Seq.step parasol prog a = .ok (a', d)) :
    gasUsed parasol prog (n + 1) a = parasol.gas inst ((parasol.srcs inst).map a.reg) + gasUsed parasol prog n a' := by
  rw [gasUsed]; simp only [hp, h]

theorem wsub_one (k : Nat) (h : k + 1 < 2 ^ 32) : wsub (k + 1) 1 &&& (2 ^ 32 - 1) = k := by
  have h1 : wsub (k + 1) 1 = k := by
    unfold wsub two128
    rw [show k + 1 + 2 ^ 128 - 1 = k + 2 ^ 128 from by omega, Nat.add_mod_right]
    exact Nat.mod_eq_of_lt (Nat.lt_trans (by omega : k < 2 ^ 32) (by decide))
  rw [h1, Nat.and_two_pow_sub_one_eq_mod]
  exact Nat.mod_eq_of_lt (by omega)

theorem sub_one (k : Nat) (h : k + 1 < 2 ^ 32) : Cpu.sub (.plain (k + 1) 32) (.plain 1 32) = .ok (.plain k 32) := by
  have : mask 32 = .ok (2 ^ 32 - 1) := rfl
  show (do let m ← mask 32; return Reg.plain (wsub (k+1) 1 &&& m) 32 : Except Err Reg) = _
  rw [this]
  show Except.ok (Reg.plain (wsub (k+1) 1 &&& (2 ^ 32 - 1)) 32) = _
  rw [wsub_one k h]

theorem code_0 (K : Nat) : code (loopProg K) 0 = .ok ⟨.loadI, [1, K, 32]⟩ := rfl
theorem code_1 (K : Nat) : code (loopProg K) 8 = .ok ⟨.loadI, [3, 1, 32]⟩ := rfl
theorem code_2 (K : Nat) : code (loopProg K) 16 = .ok ⟨.sub, [1, 1, 3]⟩ := rfl
theorem code_3 (K : Nat) : code (loopProg K) 24 = .ok ⟨.branchNonZero, [1, -8]⟩ := rfl
theorem code_4 (K : Nat) : code (loopProg K) 32 = .ok ⟨.ret, []⟩ := rfl

theorem loop_sub (K k : Nat) (reg : Nat → Reg) (mem : View) (h : k + 1 < 2 ^ 32) (h1 : reg 1 = .plain (k + 1) 32)
    (h3 : reg 3 = .plain 1 32) :
    Seq.step parasol (code (loopProg K)) ⟨reg, mem, 16⟩ = .ok (⟨setReg reg 1 (.plain k 32), mem, 24⟩, false) := by
  have hx : parasol.exec ⟨.sub, [1, 1, 3]⟩ ((parasol.srcs ⟨.sub, [1, 1, 3]⟩).map reg) mem = .ok ([.plain k 32], mem) := by
    show Inst.exec ⟨.sub, [1, 1, 3]⟩ [reg 1, reg 3] mem = _
    rw [h1, h3]
    have : Inst.alu ⟨.sub, [1, 1, 3]⟩ [.plain (k + 1) 32, .plain 1 32] = .ok [.plain k 32] := by
      show one (Cpu.sub (.plain (k + 1) 32) (.plain 1 32)) = _
      rw [sub_one k h]; rfl
    unfold Inst.exec; simp only [this]
  exact seqStep_ok (inst := ⟨.sub, [1, 1, 3]⟩) (b := ⟨setReg reg 1 (.plain k 32), mem, 16⟩) (code_2 _)
    (effect_ok (a := ⟨reg, mem, 16⟩) rfl hx) rfl

theorem loop_branch (K k : Nat) (reg : Nat → Reg) (mem : View) (h1 : reg 1 = .plain k 32) :
    Seq.step parasol (code (loopProg K)) ⟨reg, mem, 24⟩ = .ok (⟨reg, mem, if k = 0 then 32 else 16⟩, false) := by
  have hn : parasol.next ⟨.branchNonZero, [1, -8]⟩ 24 ((parasol.srcs ⟨.branchNonZero, [1, -8]⟩).map reg)
      = .ok (if k = 0 then 32 else 16) := by
    show Inst.next ⟨.branchNonZero, [1, -8]⟩ 24 [reg 1] = _
    rw [h1]
    show (if k ≠ 0 then .ok (jumpPc 24 (-8)) else nextPc 24 : Except Err Nat) = _
    by_cases hk : k = 0
    · rw [if_neg (by simpa using hk), if_pos hk]; rfl
    · rw [if_pos hk, if_neg hk]; rfl
  exact seqStep_ok (inst := ⟨.branchNonZero, [1, -8]⟩) (b := ⟨reg, mem, 24⟩) (code_3 _) rfl hn

theorem loop_ret (K : Nat) (reg : Nat → Reg) (mem : View) :
    Seq.step parasol (code (loopProg K)) (⟨reg, mem, 32⟩ : Regs) = .ok (⟨reg, mem, 32⟩, true) :=
  step_halt (inst := ⟨.ret, []⟩) (code_4 _) rfl rfl

theorem loop_run (K : Nat) (mem : View) : ∀ (k : Nat) (reg : Nat → Reg), k + 1 < 2 ^ 32 → reg 1 = .plain (k + 1) 32 →
    reg 3 = .plain 1 32 → ∃ b : Regs, Returns parasol (code (loopProg K)) (2 * k + 3) ⟨reg, mem, 16⟩ b ∧
      NoBackground parasol (code (loopProg K)) (2 * k + 3) ⟨reg, mem, 16⟩ ∧
      gasUsed parasol (code (loopProg K)) (2 * k + 3) ⟨reg, mem, 16⟩ = 2 * k + 2 := by
  intro k
  induction k with
  | zero =>
    intro reg hk h1 h3
    have s1 := loop_sub K 0 reg mem hk h1 h3
    have s2 := loop_branch K 0 (setReg reg 1 (.plain 0 32)) mem rfl
    rw [if_pos rfl] at s2
    have s3 := loop_ret K (setReg reg 1 (.plain 0 32)) mem
    have a1 : parasol.async ⟨.sub, [1, 1, 3]⟩ ((parasol.srcs ⟨.sub, [1, 1, 3]⟩).map reg) = false := by
      show Inst.async ⟨.sub, [1, 1, 3]⟩ [reg 1, reg 3] = _
      rw [h1, h3]; rfl
    have a2 : parasol.gas ⟨.sub, [1, 1, 3]⟩ ((parasol.srcs ⟨.sub, [1, 1, 3]⟩).map reg) = 1 := by
      show Inst.gas ⟨.sub, [1, 1, 3]⟩ [reg 1, reg 3] = _
      rw [h1, h3]; rfl
    refine ⟨⟨setReg reg 1 (.plain 0 32), mem, 32⟩, returns_next s1 (returns_next s2 (returns_last s3)), ?_, ?_⟩
    · exact noBackground_next (inst := ⟨.sub, [1, 1, 3]⟩) (code_2 _) s1 a1
        (noBackground_next (inst := ⟨.branchNonZero, [1, -8]⟩) (code_3 _) s2 rfl
          (noBackground_next (inst := ⟨.ret, []⟩) (code_4 _) s3 rfl trivial))
    · rw [gasUsed_next (inst := ⟨.sub, [1, 1, 3]⟩) (code_2 _) s1, gasUsed_next (inst := ⟨.branchNonZero, [1, -8]⟩) (code_3 _) s2,
        gasUsed_next (inst := ⟨.ret, []⟩) (code_4 _) s3, a2]
      rfl
  | succ k ih =>
    intro reg hk h1 h3
    have s1 := loop_sub K (k + 1) reg mem hk h1 h3
    have s2 := loop_branch K (k + 1) (setReg reg 1 (.plain (k + 1) 32)) mem rfl
    rw [if_neg (by omega)] at s2
    obtain ⟨b, r1, r2, r3⟩ := ih (setReg reg 1 (.plain (k + 1) 32)) (by omega) rfl (by
      show (if 3 = 1 then _ else reg 3) = _
      rw [if_neg (by decide)]; exact h3)
    have a1 : parasol.async ⟨.sub, [1, 1, 3]⟩ ((parasol.srcs ⟨.sub, [1, 1, 3]⟩).map reg) = false := by
      show Inst.async ⟨.sub, [1, 1, 3]⟩ [reg 1, reg 3] = _
      rw [h1, h3]; rfl
    have a2 : parasol.gas ⟨.sub, [1, 1, 3]⟩ ((parasol.srcs ⟨.sub, [1, 1, 3]⟩).map reg) = 1 := by
      show Inst.gas ⟨.sub, [1, 1, 3]⟩ [reg 1, reg 3] = _
      rw [h1, h3]; rfl
    have e : 2 * (k + 1) + 3 = (2 * k + 3) + 1 + 1 := by omega
    rw [e]
    refine ⟨b, returns_next s1 (returns_next s2 r1), ?_, ?_⟩
    · exact noBackground_next (inst := ⟨.sub, [1, 1, 3]⟩) (code_2 _) s1 a1
        (noBackground_next (inst := ⟨.branchNonZero, [1, -8]⟩) (code_3 _) s2 rfl r2)
    · rw [gasUsed_next (inst := ⟨.sub, [1, 1, 3]⟩) (code_2 _) s1, gasUsed_next (inst := ⟨.branchNonZero, [1, -8]⟩) (code_3 _) s2, a2, r3]
      show 1 + (1 + (2 * k + 2)) = _
      omega

/-- the whole program -/
theorem loop_all (K : Nat) (hK : K + 1 < 2 ^ 32) (reg : Nat → Reg) (mem : View) :
    ∃ b : Regs, Returns parasol (code (loopProg (K + 1))) (2 * K + 5) ⟨reg, mem, 0⟩ b ∧
      NoBackground parasol (code (loopProg (K + 1))) (2 * K + 5) ⟨reg, mem, 0⟩ ∧
      gasUsed parasol (code (loopProg (K + 1))) (2 * K + 5) ⟨reg, mem, 0⟩ = 2 * K + 4 := by
  have hl : loadi (K + 1) 32 = .ok (.plain (K + 1) 32) := by
    unfold loadi
    rw [if_neg (by decide), if_neg (by decide), if_pos (Or.inl hK), Nat.mod_eq_of_lt hK]
  have hx : parasol.exec ⟨.loadI, [1, ((K + 1 : Nat) : Int), 32]⟩ [] mem = .ok ([.plain (K + 1) 32], mem) := by
    have : Inst.alu ⟨.loadI, [1, ((K + 1 : Nat) : Int), 32]⟩ [] = .ok [.plain (K + 1) 32] := by
      show one (loadi (K + 1) 32) = _
      rw [hl]; rfl
    show Inst.exec ⟨.loadI, [1, ((K + 1 : Nat) : Int), 32]⟩ [] mem = _
    unfold Inst.exec; simp only [this]
  have s1 : Seq.step parasol (code (loopProg (K + 1))) (⟨reg, mem, 0⟩ : Regs)
      = .ok (⟨setReg reg 1 (.plain (K + 1) 32), mem, 8⟩, false) :=
    seqStep_ok (inst := ⟨.loadI, [1, ((K + 1 : Nat) : Int), 32]⟩) (b := ⟨setReg reg 1 (.plain (K + 1) 32), mem, 0⟩) (code_0 _)
      (effect_ok (a := ⟨reg, mem, 0⟩) (outs := [.plain (K + 1) 32]) (l := []) rfl hx) rfl
  have s2 : Seq.step parasol (code (loopProg (K + 1))) (⟨setReg reg 1 (.plain (K + 1) 32), mem, 8⟩ : Regs)
      = .ok (⟨setReg (setReg reg 1 (.plain (K + 1) 32)) 3 (.plain 1 32), mem, 16⟩, false) :=
    seqStep_ok (inst := ⟨.loadI, [3, 1, 32]⟩) (b := ⟨setReg (setReg reg 1 (.plain (K + 1) 32)) 3 (.plain 1 32), mem, 8⟩) (code_1 _)
      (effect_ok (a := ⟨setReg reg 1 (.plain (K + 1) 32), mem, 8⟩) (outs := [.plain 1 32]) (l := []) rfl rfl) rfl
  obtain ⟨b, r1, r2, r3⟩ := loop_run (K + 1) mem K (setReg (setReg reg 1 (.plain (K + 1) 32)) 3 (.plain 1 32)) hK rfl rfl
  rw [show 2 * K + 5 = (2 * K + 3) + 1 + 1 from by omega]
  refine ⟨b, returns_next s1 (returns_next s2 r1), ?_, ?_⟩
  · exact noBackground_next (inst := ⟨.loadI, [1, ((K + 1 : Nat) : Int), 32]⟩) (code_0 _) s1 rfl
      (noBackground_next (inst := ⟨.loadI, [3, 1, 32]⟩) (code_1 _) s2 rfl r2)
  · rw [gasUsed_next (inst := ⟨.loadI, [1, ((K + 1 : Nat) : Int), 32]⟩) (code_0 _) s1,
      gasUsed_next (inst := ⟨.loadI, [3, 1, 32]⟩) (code_1 _) s2, r3]
    show 1 + (1 + (2 * K + 2)) = _
    omega

theorem run_snoc {init : Nat → Reg} {prog : Nat → Except Err Inst} {limit : Option Nat} : ∀ (ls : List Label) {s t u : Proc} {l : Label},
    run parasol prog init limit s ls = some t → step parasol prog init limit t l = some u →
    run parasol prog init limit s (ls ++ [l]) = some u := by
  intro ls
  induction ls with
  | nil => intro s t u l h1 h2; cases h1; rw [List.nil_append, run, h2]; rfl
  | cons k ls ih =>
    intro s t u l h1 h2
    rw [run] at h1
    rw [List.cons_append, run]
    cases h3 : step parasol prog init limit s k with
    | none => rw [h3] at h1; cases h1
    | some v => rw [h3] at h1; exact ih h1 h2

/-- a steady program has a complete run -/
theorem exists_done {prog : Nat → Except Err Inst} {limit : Option Nat} {a b : Regs} {N : Nat}
    (hlim : ∀ L, limit = some L → 500000 ≤ L) (hr : Returns parasol prog N a b) (hst : Steady parasol prog Inst.key N a .none) :
    ∃ ls s, Reaches prog limit a ls s ∧ s.done := by
  obtain ⟨bound, hb⟩ := C39_termination prog limit a b N hlim hr hst
  have : ∀ k ls s, Reaches prog limit a ls s → ls.length + k = bound + 1 → ∃ ls s, Reaches prog limit a ls s ∧ s.done := by
    intro k
    induction k with
    | zero => intro ls s h he; have := (hb ls s h).1; omega
    | succ k ih =>
      intro ls s h he
      rcases (hb ls s h).2.1 with hd | ⟨l, s', hs⟩
      · exact ⟨ls, s, h, hd⟩
      · exact ih (ls ++ [l]) s' (run_snoc ls h hs) (by rw [List.length_append]; show ls.length + 1 + k = _; omega)
  exact this (bound + 1) [] _ rfl (by show 0 + (bound + 1) = _; omega)

theorem loop_report (K : Nat) (hK : K + 1 < 2 ^ 32) (reg : Nat → Reg) (mem : View) (limit : Option Nat)
    (hlim : ∀ L, limit = some L → 500000 ≤ L) :
    (∃ ls s, Reaches (code (loopProg (K + 1))) limit ⟨reg, mem, 0⟩ ls s ∧ s.done) ∧
    ∀ ls s, Reaches (code (loopProg (K + 1))) limit ⟨reg, mem, 0⟩ ls s → s.done → s.fault = none ∧ s.gas = 2 * K + 4 := by
  obtain ⟨b, h1, h2, h3⟩ := loop_all K hK reg mem
  have hst : Steady parasol (code (loopProg (K + 1))) Inst.key (2 * K + 5) ⟨reg, mem, 0⟩ .none :=
    steady_of_noBackground _ _ .none (fun _ => rfl) (fun _ => rfl) h2
  refine ⟨exists_done hlim h1 hst, fun ls s h hd => ⟨(C38_steady_partial _ limit _ b _ hlim h1 hst ls s h).1, ?_⟩⟩
  rw [C42_plaintext _ limit _ b _ hlim h1 h2 ls s h hd, h3]

/-- **C121 is false**: a plaintext loop of five instructions that counts down from `2^31` returns normally under every schedule,
having been charged `2^32 + 2` units; built without overflow checks the call reports 2 units, built with them it panics. -/
theorem C121_violated : ∃ (p : List Inst) (a : Regs), p.length = 5 ∧
    (∃ ls s, Reaches (code p) none a ls s ∧ s.done) ∧
    ∀ ls s, Reaches (code p) none a ls s → s.done → s.fault = none ∧ s.gas = 2 ^ 32 + 2 ∧
      countGas false parasol (code p) a.reg none 0 (start parasol a.mem a.pc blankEntry) ls = some 2 ∧
      countGas true parasol (code p) a.reg none 0 (start parasol a.mem a.pc blankEntry) ls = none := by
  obtain ⟨h1, h2⟩ := loop_report (2 ^ 31 - 1) (by decide) (fun _ => .default) (fun _ => none) none (fun L h => by cases h)
  refine ⟨loopProg (2 ^ 31 - 1 + 1), ⟨fun _ => .default, fun _ => none, 0⟩, rfl, h1, fun ls s h hd => ?_⟩
  obtain ⟨h3, h4⟩ := h2 ls s h hd
  have h5 : s.gas = 2 ^ 32 + 2 := h4.trans (by decide)
  obtain ⟨h6, h7⟩ := C121_overflow _ none _ ls s h
  refine ⟨h3, h5, ?_, h7 (by rw [h5]; decide)⟩
  rw [h6, h5]
  exact congrArg some (by decide)

end Spf.Props
