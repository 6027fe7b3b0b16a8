import Verif.Proof.MachineTop
/-! C38–C43: the out-of-order processor against program order.

`start`/`run` (`Verif.Model.Machine`) run a program from registers `a.reg`, memory `a.mem` and program counter `a.pc` under the
schedule given by a list of labels; every real schedule is one of these. `Seq` (`Verif.Spec.Machine`) executes one instruction
at a time. Both use the instruction set `parasol` (`Verif.Model.Exec`). -/
namespace Spf.Props
open Spf.Cpu Spf.Machine
open Spf.Seq (Arch Returns Steady NoBackground Slow gasUsed)

/-- registers, memory and program counter at the start of a program -/
abbrev Regs := Arch Reg Nat (Option (Byte Bool))
/-- a state of the processor -/
abbrev Proc := St Inst Reg Nat (Option (Byte Bool))

/-- contents of the unused entries of the scoreboard -/
def blankEntry : Entry Inst Nat := ⟨⟨.ret, []⟩, [], 0, [], .waiting, [], []⟩

/-- The processor started in `a` gets to `s` under the schedule `ls`. -/
def Reaches (prog : Nat → Except Err Inst) (limit : Option Nat) (a : Regs) (ls : List Label) (s : Proc) : Prop :=
  run parasol prog a.reg limit (start parasol a.mem a.pc blankEntry) ls = some s

/-- the contents of register `r` -/
def regOf (a : Regs) (s : Proc) (r : Nat) : Reg := s.val a.reg (s.rename r)

theorem reaches_wf {prog : Nat → Except Err Inst} {limit : Option Nat} {a : Regs} {ls : List Label} {s : Proc}
    (h : Reaches prog limit a ls s) : WF s := wf_run parasol prog a.reg limit ls (wf_start _ _ _ _) h

theorem gas_le (i : Inst) (vs : List Reg) : i.gas vs ≤ 500000 := by
  unfold Inst.gas; split <;> first | (split <;> omega) | omega

theorem limit_high {limit : Option Nat} (h : ∀ L, limit = some L → 500000 ≤ L) :
    ∀ inst vs, limit.any (parasol.gas inst vs > ·) = false := by
  intro inst vs
  cases limit with
  | none => rfl
  | some L =>
    have h1 := h L rfl
    have h2 := gas_le inst vs
    simp only [Option.any_some, decide_eq_false_iff_not, gt_iff_lt, Nat.not_lt]
    exact Nat.le_trans h2 h1

/-- What is known about every schedule of a steady program. -/
theorem steady_all {prog : Nat → Except Err Inst} {limit : Option Nat} {a b : Regs} {N : Nat} {key : Inst → Nat}
    (hk : ∀ i, Inst.key i ≤ key i)
    (hlim : ∀ L, limit = some L → 500000 ≤ L) (hr : Returns parasol prog N a b) (hst : Steady parasol prog key N a .none)
    {ls : List Label} {s : Proc} (h : Reaches prog limit a ls s) :
    ∃ W, W 0 = Slow.none ∧ Ok parasol prog key a N W ∧ Sem parasol prog a s ∧ LateInv parasol prog a W N s ∧
      Timely parasol prog key a.reg limit (start parasol a.mem a.pc blankEntry) ls := by
  obtain ⟨W, hW0, hok⟩ := ok_of_steady N a b .none hr hst
  have := steady_run (local_parasol.mono hk) (limit_high hlim) N W hok hW0 ls (wf_start _ _ _ _) (sem_start a blankEntry)
    (late_start N W hok.pos blankEntry) h
  exact ⟨W, hW0, hok, this.1, this.2.1, this.2.2⟩

/-! ## Example programs -/

/-- a program given as a list of instructions from address 0 -/
def code (l : List Inst) : Nat → Except Err Inst := fun pc =>
  if pc % 8 ≠ 0 then .error (.unaligned pc) else match l[pc / 8]? with | some i => .ok i | none => .error .badOpcode

/-- fresh registers; one encrypted byte at address 4096 -/
def exStart : Regs := ⟨fun _ => .default, fun a => if a = 4096 then some (.cipher (List.replicate 8 true)) else none, 0⟩

/-- Negates the encrypted byte in place, stores the plaintext 5 over it, loads it back and skips an instruction if it is not
zero. -/
def exRace : List Inst := [⟨.loadI, [2, 4096, 32]⟩, ⟨.load, [1, 2, 8, 0]⟩, ⟨.not, [3, 1]⟩, ⟨.store, [2, 3, 8, 0]⟩,
  ⟨.loadI, [4, 5, 8]⟩, ⟨.store, [2, 4, 8, 0]⟩, ⟨.load, [6, 2, 8, 0]⟩, ⟨.branchNonZero, [6, 16]⟩, ⟨.loadI, [7, 1, 8]⟩,
  ⟨.ret, []⟩]

open Label in
/-- a schedule in which the background computation of instruction 2 takes its time -/
def exLate : List Label := [fetch, dispatched, exec 0 false, retire 0, resolve, fetch, dep, dispatched, exec 1 false, retire 1,
  resolve, fetch, dep, dispatched, exec 2 false, resolve, fetch, dep, dep, dep, dispatched, resolve, fetch, dispatched,
  exec 4 false, retire 4, resolve, fetch, dep, dep, dep, dispatched, resolve, fetch, dep, dep, dispatched, resolve, fetch, dep,
  dispatched, resolve, fetch, dispatched, exec 8 false, retire 8, resolve, fetch, dispatched, exec 9 false, retire 9, resolve,
  asyncDone 2, notify 2, retire 2, exec 3 true, notify 3, retire 3, exec 5 false, notify 5, retire 5, exec 6 false, notify 6,
  retire 6, exec 7 false, retire 7]

open Label in
/-- a schedule in which it finishes at once -/
def exEarly : List Label := [fetch, dispatched, exec 0 false, retire 0, resolve, fetch, dep, dispatched, exec 1 false, retire 1,
  resolve, fetch, dep, dispatched, exec 2 false, asyncDone 2, retire 2, resolve, fetch, dep, dep, dep, dispatched, exec 3 false,
  retire 3, resolve, fetch, dispatched, exec 4 false, retire 4, resolve, fetch, dep, dep, dep, dispatched, exec 5 false,
  retire 5, resolve, fetch, dep, dep, dispatched, exec 6 false, retire 6, resolve, fetch, dep, dispatched, exec 7 false,
  retire 7, resolve, fetch, dispatched, exec 8 false, retire 8, resolve]

/-- a check of the final state -/
def final (p : List Inst) (limit : Option Nat) (a : Regs) (ls : List Label) (f : Proc → Bool) : Bool :=
  (run parasol (code p) a.reg limit (start parasol a.mem a.pc blankEntry) ls).any f

theorem of_final {p : List Inst} {limit : Option Nat} {a : Regs} {ls : List Label} {f : Proc → Bool}
    (h : final p limit a ls f = true) : ∃ s, Reaches (code p) limit a ls s ∧ f s = true := by
  unfold final at h
  cases hr : run parasol (code p) a.reg limit (start parasol a.mem a.pc blankEntry) ls with
  | none => rw [hr] at h; simp at h
  | some s => rw [hr] at h; exact ⟨s, hr, by simpa using h⟩

/-- finished without a fault -/
def okDone (s : Proc) : Bool := s.front == .stopped && s.inflightCount == 0 && s.fault.isNone

/-! ## C38: out-of-order execution equals program order -/

/-- **C38, partial.** Let the program return in state `b` when its instructions are executed one at a time, and let no load,
store or branch depend, for its address or condition, on a register that may still be pending (`Steady`). Then under every
schedule there is no fault, and when `run_program` returns, registers and memory are those of program order and every
instruction was executed exactly once. (`C38_violated` shows that the condition is needed.) -/
theorem C38_steady_partial (prog : Nat → Except Err Inst) (limit : Option Nat) (a b : Regs) (N : Nat)
    (hlim : ∀ L, limit = some L → 500000 ≤ L) (hr : Returns parasol prog N a b) (hst : Steady parasol prog Inst.key N a .none)
    (ls : List Label) (s : Proc) (h : Reaches prog limit a ls s) :
    s.fault = none ∧ (s.done → s.n = N ∧ s.mem = b.mem ∧ ∀ r, regOf a s r = b.reg r) := by
  obtain ⟨W, _, _, hsem, hlate, _⟩ := steady_all (fun _ => Nat.le_refl _) hlim hr hst h
  refine ⟨hlate.noFault, fun hd => ?_⟩
  obtain ⟨b', h1, h2, h3⟩ := done_result (reaches_wf h) hsem hd
  obtain ⟨h4, h5⟩ := Seq.returns_det h1 hr
  subst h5
  exact ⟨h4, h2, h3⟩

/-- `exRace` without the branch is steady: five instructions wait for a computation in the background. -/
example : ∃ b, Returns parasol (code (exRace.take 7 ++ [⟨.ret, []⟩])) 8 exStart b ∧ b.reg 6 = .plain 5 8 ∧
    Steady parasol (code (exRace.take 7 ++ [⟨.ret, []⟩])) Inst.key 8 exStart .none := by
  obtain ⟨b, h1, h2⟩ := Seq.returns_of_any (isa := parasol) (prog := code (exRace.take 7 ++ [⟨.ret, []⟩])) (n := 8) (a := exStart)
    (f := fun b => b.reg 6 == .plain 5 8) (by decide +kernel)
  exact ⟨b, h1, by simpa using h2, Seq.steady_of_B _ _ _ (by decide +kernel)⟩

/-- **C38 for programs that only compute on plaintexts** (or otherwise hand nothing to the background): every schedule gives
the registers and memory of program order. -/
theorem C38_plaintext (prog : Nat → Except Err Inst) (limit : Option Nat) (a b : Regs) (N : Nat)
    (hlim : ∀ L, limit = some L → 500000 ≤ L) (hr : Returns parasol prog N a b) (hnb : NoBackground parasol prog N a)
    (ls : List Label) (s : Proc) (h : Reaches prog limit a ls s) :
    s.fault = none ∧ (s.done → s.n = N ∧ s.mem = b.mem ∧ ∀ r, regOf a s r = b.reg r) :=
  C38_steady_partial prog limit a b N hlim hr (steady_of_noBackground N a .none (fun _ => rfl) (fun _ => rfl) hnb) ls s h

/-- A loop: r1 counts down from 3, r2 accumulates. -/
def exLoop : List Inst := [⟨.loadI, [1, 3, 8]⟩, ⟨.loadI, [2, 0, 8]⟩, ⟨.loadI, [3, 1, 8]⟩, ⟨.add, [2, 2, 1]⟩, ⟨.sub, [1, 1, 3]⟩,
  ⟨.branchNonZero, [1, -16]⟩, ⟨.ret, []⟩]

example : ∃ b, Returns parasol (code exLoop) 13 exStart b ∧ b.reg 2 = .plain 6 8 ∧ NoBackground parasol (code exLoop) 13 exStart := by
  obtain ⟨b, h1, h2⟩ := Seq.returns_of_any (isa := parasol) (prog := code exLoop) (n := 13) (a := exStart)
    (f := fun b => b.reg 2 == .plain 6 8) (by decide +kernel)
  exact ⟨b, h1, by simpa using h2, Seq.noBackground_of_B _ _ (by decide +kernel)⟩

/-- **C38, converse direction, partial.** If a run ended without a fault and, whenever an instruction was fetched and its
successor determined, the registers that decide addresses and branches were not pending (`Timely`), then executing one
instruction at a time returns too, with the same registers and memory. -/
theorem C38_timely_partial (prog : Nat → Except Err Inst) (limit : Option Nat) (a : Regs) (ls : List Label) (s : Proc)
    (h : Reaches prog limit a ls s) (hd : s.done) (hf : s.fault = none)
    (ht : Timely parasol prog Inst.key a.reg limit (start parasol a.mem a.pc blankEntry) ls) :
    ∃ b, Returns parasol prog s.n a b ∧ s.mem = b.mem ∧ ∀ r, regOf a s r = b.reg r :=
  done_result (reaches_wf h) (sem_run local_parasol ls (wf_start _ _ _ _) (sem_start a blankEntry) ht h hf) hd

/-- **C38 is false in general.** The program `exRace` returns in program order with register 7 untouched. Under one schedule
the processor agrees; under another it also returns without a fault, but register 7 is 1: the branch looked at register 6
before the pending load had filled it. -/
theorem C38_violated : ∃ (p : List Inst) (a b : Regs) (N : Nat) (l₁ l₂ : List Label) (s₁ s₂ : Proc),
    Returns parasol (code p) N a b ∧ Reaches (code p) none a l₁ s₁ ∧ Reaches (code p) none a l₂ s₂ ∧
    (s₁.done ∧ s₁.fault = none) ∧ (s₂.done ∧ s₂.fault = none) ∧
    b.reg 7 = .plain 0 32 ∧ regOf a s₁ 7 = .plain 0 32 ∧ regOf a s₂ 7 = .plain 1 8 := by
  obtain ⟨s1, h1, g1⟩ := of_final (p := exRace) (limit := none) (a := exStart) (ls := exEarly)
    (f := fun s => okDone s && regOf exStart s 7 == .plain 0 32) (by decide +kernel)
  obtain ⟨s2, h2, g2⟩ := of_final (p := exRace) (limit := none) (a := exStart) (ls := exLate)
    (f := fun s => okDone s && regOf exStart s 7 == .plain 1 8) (by decide +kernel)
  obtain ⟨b, h3, g3⟩ := Seq.returns_of_any (isa := parasol) (prog := code exRace) (n := 9) (a := exStart)
    (f := fun b => b.reg 7 == .plain 0 32) (by decide +kernel)
  simp only [okDone, Bool.and_eq_true, beq_iff_eq, Option.isNone_iff_eq_none] at g1 g2 g3
  exact ⟨exRace, exStart, b, 9, exEarly, exLate, s1, s2, h3, h1, h2, ⟨g1.1.1, g1.1.2⟩, ⟨g2.1.1, g2.1.2⟩, g3, g1.2, g2.2⟩

/-! ## C39: progress -/

/-- **C39 (progress).** In every reachable state in which no dispatch has failed, an instruction that has not retired can be
brought closer to retiring: some step other than fetching a new instruction is possible. Only boundedly many such steps can
follow each other, so it retires. -/
theorem C39_progress_partial (prog : Nat → Except Err Inst) (limit : Option Nat) (a : Regs) (ls : List Label) (s : Proc)
    (h : Reaches prog limit a ls s) (hl : s.lost = none) :
    (∀ i, i < s.n → (s.ent i).status ≠ .retired →
      ∃ l s', l ≠ .fetch ∧ step parasol prog a.reg limit s l = some s') ∧
    ∃ bound, ∀ ls' s', Label.fetch ∉ ls' → run parasol prog a.reg limit s ls' = some s' → ls'.length ≤ bound := by
  refine ⟨?_, weight s, ?_⟩
  · intro i hi hu
    obtain ⟨l, s', h1, h2⟩ := progress_nofetch (isa := parasol) (prog := prog) (limit := limit) a.reg (reaches_wf h) hl hi hu
    exact ⟨l, s', h2, h1⟩
  · intro ls' s' hf hr; exact nofetch_run a.reg ls' (reaches_wf h) hf hr

/-- in the middle of the late schedule four instructions are waiting -/
example : ∃ s, Reaches (code exRace) none exStart (exLate.take 50) s ∧ s.lost = none ∧
    3 < s.n ∧ (s.ent 3).status ≠ .retired := by
  obtain ⟨s, h, g⟩ := of_final (p := exRace) (limit := none) (a := exStart) (ls := exLate.take 50)
    (f := fun s => s.lost.isNone && decide (3 < s.n) && (s.ent 3).status != .retired) (by decide +kernel)
  simp only [Bool.and_eq_true, Option.isNone_iff_eq_none, decide_eq_true_eq, bne_iff_ne] at g
  exact ⟨s, h, g.1.1, g.1.2, g.2⟩

/-- **C39 (no deadlock).** A reachable state is finished, or a step is possible, unless a dispatch has failed. -/
theorem C39_deadlock_free_partial (prog : Nat → Except Err Inst) (limit : Option Nat) (a : Regs) (ls : List Label) (s : Proc)
    (h : Reaches prog limit a ls s) (hl : s.lost = none) : s.done ∨ ∃ l s', step parasol prog a.reg limit s l = some s' := by
  by_cases hd : s.done
  · exact Or.inl hd
  · exact Or.inr (progress a.reg (reaches_wf h) hl hd)

example : ∃ s, Reaches (code exRace) none exStart exLate s ∧ s.lost = none := by
  obtain ⟨s, h, g⟩ := of_final (p := exRace) (limit := none) (a := exStart) (ls := exLate)
    (f := fun s => s.lost.isNone) (by decide +kernel)
  exact ⟨s, h, by simpa using g⟩

/-- **C39 (termination).** For a program that returns and is steady (see C38) every schedule ends: its length is bounded, it
can be continued until `run_program` returns, and then every instruction of the program has retired. -/
theorem C39_termination (prog : Nat → Except Err Inst) (limit : Option Nat) (a b : Regs) (N : Nat)
    (hlim : ∀ L, limit = some L → 500000 ≤ L) (hr : Returns parasol prog N a b) (hst : Steady parasol prog Inst.key N a .none) :
    ∃ bound, ∀ ls s, Reaches prog limit a ls s →
      ls.length ≤ bound ∧ (s.done ∨ ∃ l s', step parasol prog a.reg limit s l = some s') ∧
      (s.done → s.n = N ∧ ∀ i, i < N → (s.ent i).status = .retired) := by
  obtain ⟨W, hW0, hok⟩ := ok_of_steady N a b .none hr hst
  refine ⟨weight (start parasol a.mem a.pc blankEntry) + restCost parasol prog a N 0, fun ls s h => ⟨?_, ?_, ?_⟩⟩
  · exact steady_bound local_parasol (limit_high hlim) N W hok hW0 ls (wf_start _ _ _ _) (sem_start a blankEntry)
      (late_start N W hok.pos blankEntry) h
  · have hf := (C38_steady_partial prog limit a b N hlim hr hst ls s h).1
    apply C39_deadlock_free_partial prog limit a ls s h
    cases hl : s.lost with
    | none => rfl
    | some i => exact absurd hf ((reaches_wf h).lostW i hl).2.2.2
  · intro hd
    have hn := ((C38_steady_partial prog limit a b N hlim hr hst ls s h).2 hd).1
    exact ⟨hn, fun i hi => done_retired (reaches_wf h) hd.2 i (by omega)⟩

example : ∃ b, Returns parasol (code exLoop) 13 exStart b ∧ Steady parasol (code exLoop) Inst.key 13 exStart .none := by
  obtain ⟨b, h1, _⟩ := Seq.returns_of_any (isa := parasol) (prog := code exLoop) (n := 13) (a := exStart)
    (f := fun _ => true) (by decide +kernel)
  exact ⟨b, h1, Seq.steady_of_B _ _ _ (by decide +kernel)⟩

/-! ## C40: errors end the run -/

/-- **C40 is false when computing the address of a load or store fails** (`UnalignedAccess`, pointer overflow, an encrypted
address): the instruction was already counted as in flight but will never execute, and `run_program` never returns, under any
schedule. -/
theorem C40_hang_violated (prog : Nat → Except Err Inst) (limit : Option Nat) (a : Regs) (ls : List Label) (s s₁ : Proc) (inst : Inst) (e : Err)
    (h : Reaches prog limit a ls s) (hidle : s.main = .idle) (hfront : s.front = .fetch) (hf : s.fault = none)
    (hp : prog s.pc = .ok inst)
    (hg : ∀ L, limit = some L → inst.gas (inst.srcs.map (regOf a s)) ≤ L)
    (ha : inst.access (inst.srcs.map (regOf a s)) = .error e)
    (hs : step parasol prog a.reg limit s .fetch = some s₁) :
    s₁.fault = some e ∧ ∀ ls' s', run parasol prog a.reg limit s₁ ls' = some s' → ¬ s'.done := by
  have hw := reaches_wf h
  have hw1 := wf_step parasol prog a.reg limit hw .fetch hs
  have hl1 : s₁.fault = some e ∧ s₁.lost ≠ none := by
    simp only [step] at hs
    rw [if_pos ⟨hidle, hfront⟩] at hs
    injection hs with hs; subst hs
    have hv : ((parasol.srcs inst).map s.rename).map (s.val a.reg) = inst.srcs.map (regOf a s) := by
      rw [List.map_map]; rfl
    unfold fetchStep
    rw [hf]; dsimp only; rw [hp]; dsimp only
    rw [hv]
    rw [if_neg (by
      cases limit with
      | none => simp
      | some L => simpa [parasol] using hg L rfl)]
    have ha' : parasol.access inst (inst.srcs.map (regOf a s)) = .error e := ha
    rw [ha']; dsimp only [St.stop]
    exact ⟨rfl, by simp⟩
  refine ⟨hl1.1, fun ls' s' hr hd => ?_⟩
  exact (lost_run a.reg ls' hw1 hl1.2 hr).2 hd.2

/-- one load from an odd address -/
def exOdd : List Inst := [⟨.load, [1, 2, 16, 1]⟩, ⟨.ret, []⟩]

/-- **C40 is false**, as a complete program: it fails with `UnalignedAccess` in program order, but on the processor no
schedule ever finishes. -/
theorem C40_violated : ∃ (p : List Inst) (a : Regs), Seq.step parasol (code p) a = .error (.unaligned 1) ∧
    ∀ ls s, Reaches (code p) none a ls s → ¬ s.done := by
  refine ⟨exOdd, exStart, by rfl, ?_⟩
  intro ls s h hd
  cases ls with
  | nil =>
    simp only [Reaches, run] at h; injection h with h; subst h
    exact absurd hd.1 (by simp [start])
  | cons l ls =>
    simp only [Reaches, run] at h
    split at h
    · simp at h
    · rename_i s1 hs
      have hl : l = .fetch := by
        cases l <;> simp_all [step, start]
      subst hl
      exact (C40_hang_violated (code exOdd) none exStart [] _ s1 ⟨.load, [1, 2, 16, 1]⟩ (.unaligned 1) rfl rfl rfl rfl
        rfl (by intro L h; simp at h) (by rfl) hs).2 ls s h hd

/-- **C40, partial.** If a fault was raised in any other way (decoding, gas, a branch on a ciphertext, an error of an executed
instruction), then every continuation of the run is bounded, can always go on until `run_program` returns, and that reports the
first fault. -/
theorem C40_partial (prog : Nat → Except Err Inst) (limit : Option Nat) (a : Regs) (ls : List Label) (s : Proc) (e : Err)
    (h : Reaches prog limit a ls s) (hf : s.fault = some e) (hl : s.lost = none) :
    ∃ bound, ∀ ls' s', run parasol prog a.reg limit s ls' = some s' →
      ls'.length ≤ bound ∧ s'.fault = some e ∧ (s'.done ∨ ∃ l s'', step parasol prog a.reg limit s' l = some s'') := by
  refine ⟨faultWeight s, fun ls' s' hr => ?_⟩
  obtain ⟨h1, h2, h3⟩ := fault_run a.reg ls' (reaches_wf h) hf hr
  refine ⟨h1, h2, ?_⟩
  have hw' := wf_run parasol prog a.reg limit ls' (reaches_wf h) hr
  by_cases hd : s'.done
  · exact Or.inl hd
  · exact Or.inr (progress a.reg hw' (by rw [h3]; exact hl) hd)

/-- a load from an unmapped address, behind an instruction that is still running -/
def exUnmapped : List Inst := [⟨.loadI, [2, 4096, 32]⟩, ⟨.load, [1, 2, 8, 0]⟩, ⟨.not, [3, 1]⟩, ⟨.load, [4, 2, 8, 1]⟩, ⟨.ret, []⟩]

open Label in
example : ∃ s, Reaches (code exUnmapped) none exStart [fetch, dispatched, exec 0 false, retire 0, resolve, fetch, dep, dispatched,
    exec 1 false, retire 1, resolve, fetch, dep, dispatched, exec 2 false, resolve, fetch, dep, dispatched, exec 3 false] s ∧
    s.fault = some (.accessViolation 4097) ∧ s.lost = none := by
  obtain ⟨s, h, g⟩ := of_final (p := exUnmapped) (limit := none) (a := exStart)
    (ls := [fetch, dispatched, exec 0 false, retire 0, resolve, fetch, dep, dispatched,
    exec 1 false, retire 1, resolve, fetch, dep, dispatched, exec 2 false, resolve, fetch, dep, dispatched, exec 3 false])
    (f := fun s => s.fault == some (.accessViolation 4097) && s.lost.isNone) (by decide +kernel)
  simp only [Bool.and_eq_true, beq_iff_eq, Option.isNone_iff_eq_none] at g
  exact ⟨s, h, g.1, g.2⟩

/-! ## C41: the gas limit -/

open Label in
/-- **C41 is false**: with limit 1 this program of four instructions returns successfully, having used 3 units of gas. The
limit is compared with the gas of single instructions only. -/
theorem C41_violated : ∃ (p : List Inst) (a : Regs) (ls : List Label) (s : Proc),
    Reaches (code p) (some 1) a ls s ∧ s.done ∧ s.fault = none ∧ s.gas = 3 := by
  obtain ⟨s, h, g⟩ := of_final (p := [⟨.loadI, [1, 1, 8]⟩, ⟨.loadI, [2, 2, 8]⟩, ⟨.loadI, [3, 3, 8]⟩, ⟨.ret, []⟩]) (limit := some 1)
    (a := exStart) (ls := [fetch, dispatched, exec 0 false, retire 0, resolve, fetch, dispatched, exec 1 false, retire 1, resolve,
      fetch, dispatched, exec 2 false, retire 2, resolve, fetch, dispatched, exec 3 false, retire 3, resolve])
    (f := fun s => okDone s && s.gas == 3) (by decide +kernel)
  simp only [okDone, Bool.and_eq_true, beq_iff_eq, Option.isNone_iff_eq_none] at g
  exact ⟨_, _, _, s, h, ⟨g.1.1.1, g.1.1.2⟩, g.1.2, g.2⟩

/-- **C41, partial.** With limit `L` the gas charged never exceeds `L` for each instruction fetched. -/
theorem C41_partial (prog : Nat → Except Err Inst) (L : Nat) (a : Regs) (ls : List Label) (s : Proc)
    (h : Reaches prog (some L) a ls s) : s.gas ≤ s.n * L := by
  refine limit_run a.reg L ls (wf_start parasol a.mem a.pc blankEntry) ?_ ?_ ?_ h <;> simp [start]

/-- **C41, partial.** An instruction that would be charged more than the limit is not dispatched; the run reports out of
gas. -/
theorem C41_stops_partial (prog : Nat → Except Err Inst) (L : Nat) (a : Regs) (s s' : Proc) (inst : Inst)
    (hf : s.fault = none) (hp : prog s.pc = .ok inst) (hg : L < inst.gas (inst.srcs.map (regOf a s)))
    (hs : step parasol prog a.reg (some L) s .fetch = some s') :
    s'.fault = some (.outOfGas (inst.gas (inst.srcs.map (regOf a s))) L) ∧ s'.n = s.n ∧ s'.front = .stopped := by
  simp only [step] at hs
  split at hs
  · injection hs with hs; subst hs
    have hv : ((parasol.srcs inst).map s.rename).map (s.val a.reg) = inst.srcs.map (regOf a s) := by
      rw [List.map_map]; rfl
    unfold fetchStep
    rw [hf]; dsimp only; rw [hp]; dsimp only
    rw [hv]
    rw [if_pos (by simpa [parasol] using hg)]
    dsimp only [St.stop]
    rw [hf]; exact ⟨rfl, rfl, rfl⟩
  · simp at hs

/-- an encrypted negation costs 100000 -/
example : (⟨.not, [3, 1]⟩ : Inst).gas [.cipher (List.replicate 8 true)] = 100000 := by rfl

/-! ## C42: gas and the schedule -/

/-- three negations of an encrypted byte, one after the other -/
def exChain : List Inst := [⟨.loadI, [2, 4096, 32]⟩, ⟨.load, [1, 2, 8, 0]⟩, ⟨.not, [3, 1]⟩, ⟨.not, [4, 3]⟩, ⟨.not, [5, 4]⟩, ⟨.ret, []⟩]

open Label in
/-- **C42 is false**: the same program on the same memory is charged 300002 or 200003 units, depending on whether the second
negation had started when the third was fetched. -/
theorem C42_violated : ∃ (p : List Inst) (a : Regs) (l₁ l₂ : List Label) (s₁ s₂ : Proc),
    Reaches (code p) none a l₁ s₁ ∧ Reaches (code p) none a l₂ s₂ ∧ (s₁.done ∧ s₁.fault = none) ∧ (s₂.done ∧ s₂.fault = none) ∧
    s₁.gas = 300002 ∧ s₂.gas = 200003 := by
  obtain ⟨s1, h1, g1⟩ := of_final (p := exChain) (limit := none) (a := exStart)
    (ls := [fetch, dispatched, exec 0 false, retire 0, resolve, fetch, dep, dispatched, exec 1 false, retire 1, resolve,
      fetch, dep, dispatched, exec 2 false, asyncDone 2, retire 2, resolve,
      fetch, dep, dispatched, exec 3 false, asyncDone 3, retire 3, resolve,
      fetch, dep, dispatched, exec 4 false, asyncDone 4, retire 4, resolve, fetch, dispatched, exec 5 false, retire 5, resolve])
    (f := fun s => okDone s && s.gas == 300002) (by decide +kernel)
  obtain ⟨s2, h2, g2⟩ := of_final (p := exChain) (limit := none) (a := exStart)
    (ls := [fetch, dispatched, exec 0 false, retire 0, resolve, fetch, dep, dispatched, exec 1 false, retire 1, resolve,
      fetch, dep, dispatched, exec 2 false, resolve, fetch, dep, dispatched, resolve, fetch, dep, dispatched, resolve,
      fetch, dispatched, exec 5 false, retire 5, resolve, asyncDone 2, notify 2, retire 2, exec 3 true, asyncDone 3, notify 3,
      retire 3, exec 4 true, asyncDone 4, retire 4])
    (f := fun s => okDone s && s.gas == 200003) (by decide +kernel)
  simp only [okDone, Bool.and_eq_true, beq_iff_eq, Option.isNone_iff_eq_none] at g1 g2
  exact ⟨_, _, _, _, s1, s2, h1, h2, ⟨g1.1.1, g1.1.2⟩, ⟨g2.1.1, g2.1.2⟩, g1.2, g2.2⟩

/-- the sources on which the gas of an instruction or the front end depends -/
def gasKey (i : Inst) : Nat :=
  match i.op with
  | .load | .store | .branchNonZero | .branchZero => 1
  | .loadI | .branch | .move | .dbg | .sext | .zext | .trunc | .ret => 0
  | _ => 3

theorem key_le_gasKey (i : Inst) : i.key ≤ gasKey i := by
  unfold Inst.key gasKey; cases i.op <;> simp

theorem gas_gasKey (i : Inst) (vs vs' : List Reg) (h : vs.take (gasKey i) = vs'.take (gasKey i)) : i.gas vs = i.gas vs' := by
  have h3 : ∀ k, k < gasKey i → isCt vs k = isCt vs' k := by
    intro k hk
    have := congrArg (fun l : List Reg => l[k]?) h
    simp only [List.getElem?_take, hk, if_true] at this
    unfold isCt; rw [this]
  unfold Inst.gas
  unfold gasKey at h3
  cases hop : i.op <;> rw [hop] at h3 <;> first
    | rfl
    | (rw [h3 0 (by decide), h3 1 (by decide), h3 2 (by decide)])
    | (rw [h3 0 (by decide), h3 1 (by decide)])
    | (rw [h3 0 (by decide)])
    | (rw [h3 1 (by decide)])

theorem ret_gas (inst : Inst) (pc : Nat) (vs : List Reg) (h : parasol.next inst pc vs = .error .halt) : parasol.gas inst vs = 0 := by
  change inst.next pc vs = .error .halt at h
  show inst.gas vs = 0
  have hn : nextPc pc ≠ .error .halt := by unfold nextPc; split <;> simp
  unfold Inst.next at h
  unfold Inst.gas
  cases hop : inst.op <;> rw [hop] at h <;> dsimp only at h ⊢ <;> first
    | rfl
    | exact absurd h hn
    | (simp at h; done)
    | (split at h
       · split at h
         · simp at h
         · exact absurd h hn
       · simp at h)

/-- **C42, partial.** For a program that returns in program order, and in which no instruction whose gas depends on the kind of
an operand reads one that may be pending, every schedule charges the same gas: that of program order. -/
theorem C42_partial (prog : Nat → Except Err Inst) (limit : Option Nat) (a b : Regs) (N : Nat)
    (hlim : ∀ L, limit = some L → 500000 ≤ L) (hr : Returns parasol prog N a b) (hst : Steady parasol prog gasKey N a .none)
    (ls : List Label) (s : Proc) (h : Reaches prog limit a ls s) (hd : s.done) : s.gas = gasUsed parasol prog N a := by
  obtain ⟨W, _, hok, hsem, hlate, ht⟩ := steady_all key_le_gasKey hlim hr hst h
  have hg := gas_run (local_parasol.mono key_le_gasKey) gas_gasKey ls (wf_start _ _ _ _) (sem_start a blankEntry)
    (gas_start blankEntry) ht h hlate.noFault
  have h1 := done_gas (reaches_wf h) hsem hg hd ret_gas
  obtain ⟨b', h2, _⟩ := done_result (reaches_wf h) hsem hd
  obtain ⟨h4, _⟩ := Seq.returns_det h2 hr
  rw [h1, h4]

/-- the loop is charged 12 units; so is a program that negates an encrypted byte and stores the result -/
example : (∃ b, Returns parasol (code exLoop) 13 exStart b) ∧ Steady parasol (code exLoop) gasKey 13 exStart .none ∧
    gasUsed parasol (code exLoop) 13 exStart = 12 := by
  refine ⟨?_, Seq.steady_of_B _ _ _ (by decide +kernel), by decide +kernel⟩
  obtain ⟨b, h1, _⟩ := Seq.returns_of_any (isa := parasol) (prog := code exLoop) (n := 13) (a := exStart)
    (f := fun _ => true) (by decide +kernel)
  exact ⟨b, h1⟩
example : (∃ b, Returns parasol (code (exRace.take 4 ++ [⟨.ret, []⟩])) 5 exStart b) ∧
    Steady parasol (code (exRace.take 4 ++ [⟨.ret, []⟩])) gasKey 5 exStart .none ∧
    gasUsed parasol (code (exRace.take 4 ++ [⟨.ret, []⟩])) 5 exStart = 100003 := by
  refine ⟨?_, Seq.steady_of_B _ _ _ (by decide +kernel), by decide +kernel⟩
  obtain ⟨b, h1, _⟩ := Seq.returns_of_any (isa := parasol) (prog := code (exRace.take 4 ++ [⟨.ret, []⟩])) (n := 5) (a := exStart)
    (f := fun _ => true) (by decide +kernel)
  exact ⟨b, h1⟩

/-- **C42 for programs that hand nothing to the background**: the gas does not depend on the schedule. -/
theorem C42_plaintext (prog : Nat → Except Err Inst) (limit : Option Nat) (a b : Regs) (N : Nat)
    (hlim : ∀ L, limit = some L → 500000 ≤ L) (hr : Returns parasol prog N a b) (hnb : NoBackground parasol prog N a)
    (ls : List Label) (s : Proc) (h : Reaches prog limit a ls s) (hd : s.done) : s.gas = gasUsed parasol prog N a :=
  C42_partial prog limit a b N hlim hr (steady_of_noBackground N a .none (fun _ => rfl) (fun _ => rfl) hnb) ls s h hd

/-! ## C43: branches -/

/-- **C43, partial.** In a program that returns in program order and in which no branch condition and no address may be
pending, the processor under every schedule fetches the instructions of program order: the `i`-th instruction fetched is the
one at the program counter after `i` instructions. -/
theorem C43_path_partial (prog : Nat → Except Err Inst) (limit : Option Nat) (a b : Regs) (N : Nat)
    (hlim : ∀ L, limit = some L → 500000 ≤ L) (hr : Returns parasol prog N a b) (hst : Steady parasol prog Inst.key N a .none)
    (ls : List Label) (s : Proc) (h : Reaches prog limit a ls s) (i : Nat) (hi : i < s.n) :
    ∃ x : Regs, Seq.after parasol prog i a = some x ∧ prog x.pc = .ok (s.ent i).inst := by
  obtain ⟨W, _, hok, hsem, hlate, _⟩ := steady_all (fun _ => Nat.le_refl _) hlim hr hst h
  exact ⟨_, after_T N W hok i (Nat.lt_of_lt_of_le hi hlate.nle), hsem.inst i hi⟩

/-- **C43, partial.** In such a program, if the `i`-th instruction fetched is a branch on register `c` and another instruction
was fetched after it, that one is at the target exactly when the condition, as computed by the first `i` instructions in
program order, is met. -/
theorem C43_partial (prog : Nat → Except Err Inst) (limit : Option Nat) (a b : Regs) (N : Nat)
    (hlim : ∀ L, limit = some L → 500000 ≤ L) (hr : Returns parasol prog N a b) (hst : Steady parasol prog Inst.key N a .none)
    (ls : List Label) (s : Proc) (h : Reaches prog limit a ls s) (i : Nat) (hi : i + 1 < s.n) (nz : Bool) (c : Nat) (off : Int)
    (hb : (s.ent i).inst = ⟨if nz then .branchNonZero else .branchZero, [(c : Int), off]⟩) :
    ∃ (x : Regs) (v w : Nat), Seq.after parasol prog i a = some x ∧ x.reg c = .plain v w ∧
      prog (if decide (v ≠ 0) = nz then jumpPc x.pc off else x.pc + 8) = .ok (s.ent (i + 1)).inst := by
  obtain ⟨x, hx, hpx⟩ := C43_path_partial prog limit a b N hlim hr hst ls s h i (by omega)
  obtain ⟨y, hy, hpy⟩ := C43_path_partial prog limit a b N hlim hr hst ls s h (i + 1) hi
  rw [Seq.after_succ, hx] at hy
  simp only [Option.bind_some] at hy
  cases hs : Seq.step parasol prog x with
  | error e => rw [hs] at hy; simp at hy
  | ok p =>
    obtain ⟨y', f⟩ := p
    rw [hs] at hy
    cases f with
    | true => simp at hy
    | false =>
      simp only [Option.some.injEq] at hy
      subst hy
      unfold Seq.step at hs
      rw [hpx] at hs; dsimp only at hs
      split at hs
      · simp at hs
      · rename_i z hz
        rw [hb] at hs
        have hsr : (parasol.srcs (⟨if nz then Op.branchNonZero else Op.branchZero, [(c : Int), off]⟩ : Inst)).map x.reg = [x.reg c] := by
          cases nz <;> rfl
        rw [hsr] at hs
        cases hc : x.reg c with
        | cipher bits => rw [hc] at hs; cases nz <;> simp [parasol, Inst.next] at hs
        | plain v w =>
          rw [hc] at hs
          refine ⟨x, v, w, hx, hc, ?_⟩
          rw [← hpy]
          have hpc : ∀ t, (if decide (v ≠ 0) = nz then Except.ok (jumpPc x.pc off) else nextPc x.pc) = .ok t → t =
              (if decide (v ≠ 0) = nz then jumpPc x.pc off else x.pc + 8) := by
            intro t ht
            split at ht
            · rename_i hh; rw [if_pos hh]; injection ht with ht; exact ht.symm
            · rename_i hh; rw [if_neg hh]; unfold nextPc at ht; split at ht
              · injection ht with ht; exact ht.symm
              · simp at ht
          have hn : parasol.next (⟨if nz then Op.branchNonZero else Op.branchZero, [(c : Int), off]⟩ : Inst) x.pc [.plain v w] =
              (if decide (v ≠ 0) = nz then Except.ok (jumpPc x.pc off) else nextPc x.pc) := by
            cases nz
            · by_cases hv : v = 0 <;> simp [parasol, Inst.next, Inst.arg, hv]
            · by_cases hv : v = 0 <;> simp [parasol, Inst.next, Inst.arg, hv]
          rw [hn] at hs
          split at hs
          · rename_i pc' hpc'
            injection hs with hs; injection hs with hs _; subst hs
            dsimp only; rw [hpc _ hpc']
          · injection hs with hs; simp at hs
          · simp at hs

/-- the loop branches back twice and then falls through -/
example : ∃ b s, Returns parasol (code exLoop) 13 exStart b ∧ Steady parasol (code exLoop) Inst.key 13 exStart .none ∧
    Reaches (code exLoop) none exStart [.fetch, .dispatched, .exec 0 false, .retire 0, .resolve, .fetch] s ∧ 1 < s.n := by
  obtain ⟨b, h1, _⟩ := Seq.returns_of_any (isa := parasol) (prog := code exLoop) (n := 13) (a := exStart)
    (f := fun _ => true) (by decide +kernel)
  obtain ⟨s, h, g⟩ := of_final (p := exLoop) (limit := none) (a := exStart)
    (ls := [.fetch, .dispatched, .exec 0 false, .retire 0, .resolve, .fetch]) (f := fun s => decide (1 < s.n)) (by decide +kernel)
  exact ⟨b, s, h1, Seq.steady_of_B _ _ _ (by decide +kernel), h, by simpa using g⟩

/-- **C43 is false in general**: in `exRace` the branch on register 6 has condition 5 in program order, and skips to the
return; under the late schedule the instruction executed after it is the next one. -/
theorem C43_violated : ∃ (p : List Inst) (a x : Regs) (ls : List Label) (s : Proc) (off : Int),
    Reaches (code p) none a ls s ∧ s.done ∧ s.fault = none ∧ 8 < s.n ∧
    (∀ i, i < 8 → ∃ y : Regs, Seq.after parasol (code p) i a = some y ∧ code p y.pc = .ok (s.ent i).inst) ∧
    Seq.after parasol (code p) 7 a = some x ∧ code p x.pc = .ok ⟨.branchNonZero, [6, off]⟩ ∧ x.reg 6 = .plain 5 8 ∧
    code p (jumpPc x.pc off) = .ok ⟨.ret, []⟩ ∧ (s.ent 8).inst ≠ ⟨.ret, []⟩ := by
  obtain ⟨s, h, g⟩ := of_final (p := exRace) (limit := none) (a := exStart) (ls := exLate)
    (f := fun s => okDone s && decide (8 < s.n) &&
      ((List.range 8).all fun i => (Seq.after parasol (code exRace) i exStart).any fun y =>
        code exRace y.pc == .ok (s.ent i).inst) && (s.ent 8).inst != ⟨.ret, []⟩) (by decide +kernel)
  have hx : (Seq.after parasol (code exRace) 7 exStart).any (fun x => code exRace x.pc == .ok ⟨.branchNonZero, [6, 16]⟩ &&
      x.reg 6 == .plain 5 8 && code exRace (jumpPc x.pc 16) == .ok ⟨.ret, []⟩) = true := by decide +kernel
  simp only [okDone, Bool.and_eq_true, beq_iff_eq, Option.isNone_iff_eq_none, decide_eq_true_eq, List.all_eq_true,
    List.mem_range, bne_iff_ne, Option.any_eq_true_iff_get] at g hx
  obtain ⟨hy, hx⟩ := hx
  refine ⟨exRace, exStart, _, exLate, s, 16, h, ⟨g.1.1.1.1.1, g.1.1.1.1.2⟩, g.1.1.1.2, g.1.1.2, ?_, (Option.some_get hy).symm, hx.1.1, hx.1.2, hx.2, g.2⟩
  intro i hi
  obtain ⟨h1, h2⟩ := g.1.2 i hi
  exact ⟨_, (Option.some_get h1).symm, h2⟩

end Spf.Props
