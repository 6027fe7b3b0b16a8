import Verif.Proof.Session
import Verif.Props.Machine
/-! C103: what a computer ran before makes no difference. -/
namespace Spf.Props
open Spf.Cpu Spf.Machine

/-- The states of a computer between two calls of `run_program`: it is new, or it was in such a state and a call returned
(with a value or with an error) after some schedule. Program, gas limit, registers and memory are different in each call. -/
inductive Between : Proc → Prop
  | new (mem : Nat → Option (Byte Bool)) : Between (newComputer parasol mem blankEntry)
  | ran {s s' : Proc} (prog : Nat → Except Err Inst) (limit : Option Nat) (a : Regs) (ls : List Label) (h : Between s)
      (hr : run parasol prog a.reg limit (restart s a.mem a.pc) ls = some s') (hd : s'.done) : Between s'

/-- What the caller of `run_program` can see of a state, and whether it has returned. -/
structure Same (a : Regs) (s t : Proc) : Prop where
  done : s.done ↔ t.done
  fault : s.fault = t.fault
  mem : s.mem = t.mem
  gas : s.gas = t.gas
  pc : s.pc = t.pc
  regs : ∀ r, regOf a s r = regOf a t r

theorem shift_same (a : Regs) (k : Nat) (o t : Proc) : Same a (shift k o t) t := by
  refine ⟨?_, rfl, rfl, rfl, rfl, fun r => shift_val a.reg (t.rename r)⟩
  show shFront k t.front = .stopped ∧ t.inflightCount = 0 ↔ t.front = .stopped ∧ t.inflightCount = 0
  cases t.front <;> simp [shFront]

theorem blank_start (a : Regs) : Blank parasol blankEntry (start parasol a.mem a.pc blankEntry) :=
  fun _ _ => ⟨rfl, fun _ => rfl⟩

theorem between_quiet {s : Proc} (h : Between s) : Quiet parasol blankEntry s := by
  induction h with
  | new mem => exact ⟨rfl, rfl, rfl, rfl, rfl, fun i hi => absurd hi (by simp [newComputer, start]), fun _ _ => ⟨rfl, fun _ => rfl⟩⟩
  | @ran s s' prog limit a ls h hr hd ih =>
    rw [restart_eq (isa := parasol) (e0 := blankEntry) rfl ih] at hr
    obtain ⟨ls', t', -, h2, rfl⟩ := shift_run_inv parasol prog a.reg limit ih.retired ls _ _ hr
    have hd' : t'.done := (shift_same a s.n s t').done.1 hd
    exact quiet_shift rfl (quiet_of_done (reaches_wf h2) (blank_run parasol prog a.reg limit ls' (wf_start _ _ _ _) (blank_start a) h2) hd')
      ih.retired

/-- **C103.** Take a computer that has run any programs before, under any schedules, some of which may have failed, and run a
program on it. Whatever state it gets to under a schedule, a computer that has run nothing gets, under the same schedule up to
the numbering of the instructions, to one that the caller cannot tell from it: one has returned exactly if the other has, with
the same error or none, the same memory, gas and registers. -/
theorem C103_used_like_new (s : Proc) (hs : Between s) (prog : Nat → Except Err Inst) (limit : Option Nat) (a : Regs)
    (ls : List Label) (s' : Proc) (h : run parasol prog a.reg limit (restart s a.mem a.pc) ls = some s') :
    ∃ ls₀ s₀, Reaches prog limit a ls₀ s₀ ∧ Same a s' s₀ ∧ ls₀.length = ls.length ∧ s'.n = s.n + s₀.n := by
  have hq := between_quiet hs
  rw [restart_eq (isa := parasol) (e0 := blankEntry) rfl hq] at h
  obtain ⟨ls', t', h1, h2, rfl⟩ := shift_run_inv parasol prog a.reg limit hq.retired ls _ _ h
  exact ⟨ls', t', h2, shift_same a s.n s t', by rw [h1, List.length_map], rfl⟩

/-- **C103, the other direction.** Everything a new computer can do, a used one can do: nothing left behind by earlier
programs blocks a step. -/
theorem C103_new_like_used (s : Proc) (hs : Between s) (prog : Nat → Except Err Inst) (limit : Option Nat) (a : Regs)
    (ls₀ : List Label) (s₀ : Proc) (h : Reaches prog limit a ls₀ s₀) :
    ∃ ls s', run parasol prog a.reg limit (restart s a.mem a.pc) ls = some s' ∧ Same a s' s₀ ∧ ls.length = ls₀.length := by
  have hq := between_quiet hs
  refine ⟨ls₀.map (shLabel s.n), shift s.n s s₀, ?_, shift_same a s.n s s₀, by simp⟩
  rw [restart_eq (isa := parasol) (e0 := blankEntry) rfl hq, shift_run]
  unfold Reaches at h
  rw [h]; rfl

/-- **C103, results.** On a computer that has run any programs before, a steady program that returns in program order gives the
result of program order under every schedule. -/
theorem C103_result (s : Proc) (hs : Between s) (prog : Nat → Except Err Inst) (limit : Option Nat) (a b : Regs) (N : Nat)
    (hlim : ∀ L, limit = some L → 500000 ≤ L) (hr : Seq.Returns parasol prog N a b)
    (hst : Seq.Steady parasol prog Inst.key N a .none) (ls : List Label) (s' : Proc)
    (h : run parasol prog a.reg limit (restart s a.mem a.pc) ls = some s') :
    s'.fault = none ∧ (s'.done → s'.n = s.n + N ∧ s'.mem = b.mem ∧ ∀ r, regOf a s' r = b.reg r) := by
  obtain ⟨ls₀, s₀, h1, h2, -, h4⟩ := C103_used_like_new s hs prog limit a ls s' h
  obtain ⟨g1, g2⟩ := C38_steady_partial prog limit a b N hlim hr hst ls₀ s₀ h1
  refine ⟨h2.fault.trans g1, fun hd => ?_⟩
  obtain ⟨g3, g4, g5⟩ := g2 (h2.done.1 hd)
  exact ⟨by omega, h2.mem.trans g4, fun r => (h2.regs r).trans (g5 r)⟩

open Label in
/-- a schedule under which `exUnmapped` fails and `run_program` returns the error -/
def exFailing : List Label := [fetch, dispatched, exec 0 false, retire 0, resolve, fetch, dep, dispatched, exec 1 false, retire 1,
  resolve, fetch, dep, dispatched, exec 2 false, resolve, fetch, dep, dispatched, exec 3 false, retire 3, resolve, fetch,
  asyncDone 2, retire 2]

/-- A computer on which a program failed with an access violation, and on it a program that returns: the hypotheses of C103 are
met with four instructions of the earlier program still in the numbering. -/
example : ∃ s ls s', Between s ∧ s.n = 4 ∧ s.fault = some (.accessViolation 4097) ∧
    run parasol (code exRace) exStart.reg none (restart s exStart.mem exStart.pc) ls = some s' ∧ s'.done ∧ s'.fault = none ∧
    regOf exStart s' 7 = .plain 0 32 := by
  obtain ⟨s, h, g⟩ := of_final (p := exUnmapped) (limit := none) (a := exStart) (ls := exFailing)
    (f := fun s => s.front == .stopped && s.inflightCount == 0 && s.n == 4 && s.fault == some (.accessViolation 4097)) (by decide +kernel)
  obtain ⟨s1, h1, g1⟩ := of_final (p := exRace) (limit := none) (a := exStart) (ls := exEarly)
    (f := fun s => okDone s && regOf exStart s 7 == .plain 0 32) (by decide +kernel)
  simp only [okDone, Bool.and_eq_true, beq_iff_eq, Option.isNone_iff_eq_none] at g g1
  have hb : Between s := by
    refine .ran (s := newComputer parasol exStart.mem blankEntry) (code exUnmapped) none exStart exFailing (.new _) ?_ ⟨g.1.1.1, g.1.1.2⟩
    exact h
  obtain ⟨ls, s', h2, h3, -⟩ := C103_new_like_used s hb (code exRace) none exStart exEarly s1 h1
  exact ⟨s, ls, s', hb, g.1.2, g.2, h2, h3.done.2 g1.1.1, h3.fault.trans g1.1.2, (h3.regs 7).trans g1.2⟩

end Spf.Props
