import Verif.Proof.Debug
import Verif.Props.Instr
/-! C117: debug handlers (parasol_cpu/src/proc/ops/dbg.rs); the last instruction of C81. -/
namespace Spf.Props
open Spf.Cpu Spf.Machine
open Spf.Seq (Arch Returns Steady NoBackground Slow)

/-- Specification: the calls of debug handlers when instructions are executed one at a time, in program order. When
instruction number `i` is `dbg r, k` and handler `k` is installed, handler `k` is called with `i`, the program counter and
the contents of register `r`. -/
def debugCalls (handlers : Nat) (prog : Nat → Except Err Inst) (a : Regs) (N : Nat) : List Hit :=
  (List.range N).filterMap fun i =>
    match Seq.after parasol prog i a with
    | none => none
    | some b =>
      match prog b.pc with
      | .error _ => none
      | .ok inst =>
        if inst.op = .dbg ∧ inst.nat 1 < handlers then some ⟨inst.nat 1, i, b.pc, b.reg (inst.nat 0)⟩ else none

/-- The processor started in `a` with `handlers` debug handlers gets to `s` under the schedule `ls`, having made the calls
`hits`, oldest first. -/
def ReachesObs (handlers : Nat) (prog : Nat → Except Err Inst) (limit : Option Nat) (a : Regs) (ls : List Label) (s : Proc)
    (hits : List Hit) : Prop :=
  runObs (Inst.hit handlers) parasol prog a.reg limit (start parasol a.mem a.pc blankEntry) (fun _ => 0) [] ls =
    some (s, hits)

/-- Which operands decide what an instruction shows or does next: also the register a `dbg` reads. -/
def dbgKey (i : Inst) : Nat := if i.op = .dbg then 1 else Inst.key i

theorem key_le_dbgKey (i : Inst) : Inst.key i ≤ dbgKey i := by
  unfold dbgKey
  split
  · rename_i h; unfold Inst.key; rw [h]; decide
  · exact Nat.le_refl _

theorem steady_weaken {prog : Nat → Except Err Inst} {key key' : Inst → Nat} (hk : ∀ i, key i ≤ key' i) :
    ∀ (N : Nat) (a : Regs) (w : Slow Nat), Steady parasol prog key' N a w → Steady parasol prog key N a w := by
  intro N
  induction N with
  | zero => intro a w _; trivial
  | succ N ih =>
    intro a w h
    simp only [Steady] at h ⊢
    cases hp : prog a.pc with
    | error e => cases hq : Seq.step parasol prog a <;> trivial
    | ok inst =>
      cases hq : Seq.step parasol prog a with
      | error e => trivial
      | ok q =>
        rw [hp, hq] at h
        exact ⟨fun r hr => h.1 r ((List.take_subset_take_left _ (hk inst)) hr), ih _ _ h.2⟩

theorem hit_dbg {handlers : Nat} {inst : Inst} {id pc : Nat} {vs : List Reg}
    (h : (Inst.hit handlers inst id pc vs).isSome) : inst.op = .dbg := by
  unfold Inst.hit at h
  split at h
  · assumption
  · simp at h

theorem debugCalls_eq {handlers : Nat} {prog : Nat → Except Err Inst} {a : Regs} {N : Nat} {key : Inst → Nat}
    {W : Nat → Slow Nat} (hok : Ok parasol prog key a N W) :
    ∀ k, k ≤ N → debugCalls handlers prog a k = (List.range k).filterMap (hitT (Inst.hit handlers) parasol prog a) := by
  intro k hk
  refine List.filterMap_congr fun i hi => ?_
  have hi := List.mem_range.1 hi
  rw [after_T N W hok i (by omega)]
  unfold hitT
  simp only
  obtain ⟨inst, _, _, hp, _⟩ := hok.ok i (by omega)
  unfold tVals
  rw [hp]
  simp only
  unfold Inst.hit
  by_cases h : inst.op = .dbg
  · have hs : parasol.srcs inst = [inst.nat 0] := by
      show Inst.srcs inst = _
      unfold Inst.srcs; rw [h]
    rw [hs, h]
    by_cases hh : inst.nat 1 < handlers
    · simp [hh]
    · simp [hh]
  · rw [if_neg (by simp [h])]
    split
    · rename_i hc; exact absurd hc h
    · rfl

/-- **C117, handlers only watch.** Installing handlers changes nothing: a schedule is possible with handlers exactly when it
is possible without, and leads to the same state. -/
theorem C117_watch (handlers : Nat) (prog : Nat → Except Err Inst) (limit : Option Nat) (a : Regs) (ls : List Label)
    (s : Proc) : Reaches prog limit a ls s ↔ ∃ hits, ReachesObs handlers prog limit a ls s hits :=
  ⟨fun h => run_runObs _ ls _ _ _ s h, fun ⟨_, h⟩ => runObs_run _ ls _ _ _ _ h⟩

/-- **C117, partial: calls.** Let the program return when executed one instruction at a time and be `Steady` (as in C38).
Then under every schedule the calls made so far are among the calls of program order, none twice, with the instruction
number, program counter and register contents of program order; and when `run_program` returns, exactly those calls have
been made. (Their order is the subject of `C117_ordered_partial` and `C117_order_violated`.) -/
theorem C117_calls_partial (handlers : Nat) (prog : Nat → Except Err Inst) (limit : Option Nat) (a b : Regs) (N : Nat)
    (hlim : ∀ L, limit = some L → 500000 ≤ L) (hr : Returns parasol prog N a b)
    (hst : Steady parasol prog Inst.key N a .none) (ls : List Label) (s : Proc) (hits : List Hit)
    (h : ReachesObs handlers prog limit a ls s hits) :
    (∃ rest, (hits ++ rest).Perm (debugCalls handlers prog a N)) ∧
      (s.done → hits.Perm (debugCalls handlers prog a N)) := by
  have hreach : Reaches prog limit a ls s := runObs_run _ ls _ _ _ _ h
  obtain ⟨W, hW0, hok, hsem, hlate, _⟩ := steady_all (fun _ => Nat.le_refl _) hlim hr hst hreach
  obtain ⟨pcs, order, ho, _⟩ := obs_run (Inst.hit handlers) local_parasol (limit_high hlim) N W hok hW0 ls
    (wf_start _ _ _ _) (sem_start a blankEntry) (late_start N W hok.pos blankEntry)
    (obs_start (Inst.hit handlers) blankEntry W _).1 h
  have hnle := hlate.nle
  simp only at ho
  rw [debugCalls_eq hok N (Nat.le_refl _), ho.hits]
  refine ⟨?_, fun hd => ?_⟩
  · refine ⟨((List.range N).filter fun i => decide (i ∉ order)).filterMap (hitT (Inst.hit handlers) parasol prog a), ?_⟩
    rw [← List.filterMap_append]
    refine List.Perm.filterMap _ ?_
    rw [List.perm_ext_iff_of_nodup]
    · intro i
      rw [List.mem_append, List.mem_filter, List.mem_range, decide_eq_true_eq]
      constructor
      · rintro (h1 | h1)
        · have := ((ho.mem i).1 h1).1; omega
        · exact h1.1
      · intro h1
        by_cases hi : i ∈ order
        · exact .inl hi
        · exact .inr ⟨h1, hi⟩
    · rw [List.nodup_append]
      refine ⟨ho.nodup, List.Nodup.filter _ List.nodup_range, ?_⟩
      rintro x hx y hy rfl
      have := (List.mem_filter.1 hy).2
      simp [hx] at this
    · exact List.nodup_range
  · have hn : s.n = N := (C38_steady_partial prog limit a b N hlim hr hst ls s hreach).2 hd |>.1
    refine List.Perm.filterMap _ ?_
    rw [List.perm_ext_iff_of_nodup ho.nodup List.nodup_range]
    intro i
    rw [ho.mem i, List.mem_range, hn]
    constructor
    · exact fun h => h.1
    · intro hi
      refine ⟨hi, ?_⟩
      have := done_retired (reaches_wf hreach) hd.2 i (by omega)
      unfold Ex
      rw [this]; rfl

/-- **C117, partial: order.** If moreover no `dbg` reads a register that may still be pending when the `dbg` is fetched, the
calls are made in program order: at any time they are the first calls of program order, and when `run_program` returns they
are all of them. -/
theorem C117_ordered_partial (handlers : Nat) (prog : Nat → Except Err Inst) (limit : Option Nat) (a b : Regs) (N : Nat)
    (hlim : ∀ L, limit = some L → 500000 ≤ L) (hr : Returns parasol prog N a b)
    (hst : Steady parasol prog dbgKey N a .none) (ls : List Label) (s : Proc) (hits : List Hit)
    (h : ReachesObs handlers prog limit a ls s hits) :
    hits <+: debugCalls handlers prog a N ∧ (s.done → hits = debugCalls handlers prog a N) := by
  have hreach : Reaches prog limit a ls s := runObs_run _ ls _ _ _ _ h
  obtain ⟨W, hW0, hok, hsem, hlate, _⟩ := steady_all key_le_dbgKey hlim hr hst hreach
  have hstart := obs_start (isa := parasol) (prog := prog) (a0 := a) (Inst.hit handlers) blankEntry W (fun _ => 0)
  obtain ⟨pcs, order, ho, hord⟩ := obs_run (Inst.hit handlers) (local_parasol.mono key_le_dbgKey) (limit_high hlim) N W hok
    hW0 ls (wf_start _ _ _ _) (sem_start a blankEntry) (late_start N W hok.pos blankEntry) hstart.1 h
  simp only at ho
  have hq : ∀ i, i < N → (hitT (Inst.hit handlers) parasol prog a i).isSome → late parasol prog a W i = false := by
    intro i hi hh
    obtain ⟨inst, _, _, hp, hacc, _, _, hslow, _⟩ := hok.ok i hi
    unfold hitT at hh
    rw [hp] at hh
    have hd := hit_dbg hh
    have hk : dbgKey inst = 1 := by unfold dbgKey; rw [if_pos hd]
    have hs : parasol.srcs inst = [inst.nat 0] := by
      show Inst.srcs inst = _
      unfold Inst.srcs; rw [hd]
    rw [hk, hs] at hslow
    have hr0 := hslow (inst.nat 0) (by simp)
    unfold late
    rw [hp]
    simp only
    unfold Spf.Seq.slowInst
    have hasync : ∀ vs, parasol.async inst vs = false := by
      intro vs
      show Inst.async inst vs = false
      unfold Inst.async; rw [hd]
    have haccess : ∀ vs, parasol.access inst vs = .ok [] := by
      intro vs
      show Inst.access inst vs = _
      unfold Inst.access; rw [hd]
    simp only [hasync, haccess, hs, List.any_cons, List.any_nil, hr0]
    rfl
  have hnle := hlate.nle
  obtain ⟨k, hk1, hk2, hhits⟩ := obs_prefix (Inst.hit handlers) hnle hq ho (hord hq hstart.2)
  refine ⟨?_, fun hd => ?_⟩
  · rw [hhits, debugCalls_eq hok N (Nat.le_refl _)]
    refine List.IsPrefix.filterMap _ ?_
    refine ⟨(List.range (N - k)).map (k + ·), ?_⟩
    rw [← List.range_add]
    congr 1
    omega
  · have hperm := (C117_calls_partial handlers prog limit a b N hlim hr ?_ ls s hits h).2 hd
    · have hpre : hits <+: debugCalls handlers prog a N := by
        rw [hhits, debugCalls_eq hok N (Nat.le_refl _)]
        refine List.IsPrefix.filterMap _ ?_
        refine ⟨(List.range (N - k)).map (k + ·), ?_⟩
        rw [← List.range_add]
        congr 1
        omega
      exact hpre.eq_of_length hperm.length_eq
    · exact steady_weaken key_le_dbgKey N a .none hst

/-- **C81 (debug).** `dbg` only moves on to the next instruction. -/
theorem C81_dbg (prog : Nat → Except Err Inst) (a : Regs) (r k : Nat) (hp : prog a.pc = .ok ⟨.dbg, [(r : Int), (k : Int)]⟩)
    (hpc : a.pc + 8 < 2 ^ 32) : Seq.step parasol prog a = .ok ({ a with pc := a.pc + 8 }, false) := by
  simp only [Seq.step, hp, Seq.effect, parasol, Inst.access, Inst.exec, Inst.srcs, Inst.dsts, Inst.alu, Seq.assign,
    Inst.next, nextPc_ok hpc]

/-- Shows the complement of the encrypted byte at 4096, which is computed in the background, then the number 5; a third
`dbg` has no handler. -/
def exDbg : List Inst := [⟨.loadI, [2, 4096, 32]⟩, ⟨.load, [1, 2, 8, 0]⟩, ⟨.not, [3, 1]⟩, ⟨.dbg, [3, 0]⟩,
  ⟨.loadI, [4, 5, 8]⟩, ⟨.dbg, [4, 1]⟩, ⟨.dbg, [4, 2]⟩, ⟨.ret, []⟩]

open Label in
/-- The background computation ends after the program was dispatched. -/
def exDbgLate : List Label := [fetch, dispatched, exec 0 false, retire 0, resolve, fetch, dep, dispatched, exec 1 false,
  retire 1, resolve, fetch, dep, dispatched, exec 2 false, resolve, fetch, dep, dispatched, resolve, fetch, dispatched,
  exec 4 false, retire 4, resolve, fetch, dep, dispatched, exec 5 false, retire 5, resolve, fetch, dep, dispatched,
  exec 6 false, retire 6, resolve, fetch, dispatched, exec 7 false, retire 7, resolve, asyncDone 2, notify 2, retire 2,
  exec 3 true, retire 3]

/-- a check of the final state and the calls -/
def finalObs (handlers : Nat) (p : List Inst) (a : Regs) (ls : List Label) (f : Proc → List Hit → Bool) : Bool :=
  (runObs (Inst.hit handlers) parasol (code p) a.reg none (start parasol a.mem a.pc blankEntry) (fun _ => 0) [] ls).any
    fun r => f r.1 r.2

theorem of_finalObs {handlers : Nat} {p : List Inst} {a : Regs} {ls : List Label} {f : Proc → List Hit → Bool}
    (h : finalObs handlers p a ls f = true) : ∃ s hits, ReachesObs handlers (code p) none a ls s hits ∧ f s hits = true := by
  unfold finalObs at h
  cases hr : runObs (Inst.hit handlers) parasol (code p) a.reg none (start parasol a.mem a.pc blankEntry) (fun _ => 0) [] ls
      with
  | none => rw [hr] at h; simp at h
  | some r => rw [hr] at h; exact ⟨r.1, r.2, hr, by simpa using h⟩

/-- **C117: the calls may come out of program order.** The program `exDbg` returns and is steady. Program order calls
handler 0 with the complement of the encrypted byte and then handler 1 with 5. Under one schedule the processor calls
handler 1 first. -/
theorem C117_order_violated : ∃ (p : List Inst) (a b : Regs) (N : Nat) (ls : List Label) (s : Proc) (hits : List Hit),
    Returns parasol (code p) N a b ∧ Steady parasol (code p) Inst.key N a .none ∧
    ReachesObs 2 (code p) none a ls s hits ∧ s.done ∧ s.fault = none ∧
    debugCalls 2 (code p) a N = [⟨0, 3, 24, .cipher (List.replicate 8 false)⟩, ⟨1, 5, 40, .plain 5 8⟩] ∧
    hits = [⟨1, 5, 40, .plain 5 8⟩, ⟨0, 3, 24, .cipher (List.replicate 8 false)⟩] := by
  obtain ⟨s, hits, h1, g1⟩ := of_finalObs (handlers := 2) (p := exDbg) (a := exStart) (ls := exDbgLate)
    (f := fun s hits => okDone s && decide (hits = [⟨1, 5, 40, .plain 5 8⟩, ⟨0, 3, 24, .cipher (List.replicate 8 false)⟩]))
    (by decide +kernel)
  obtain ⟨b, h2, _⟩ := Seq.returns_of_any (isa := parasol) (prog := code exDbg) (n := 8) (a := exStart)
    (f := fun _ => true) (by decide +kernel)
  have h3 : Steady parasol (code exDbg) Inst.key 8 exStart .none := Seq.steady_of_B _ _ _ (by decide +kernel)
  have h4 : debugCalls 2 (code exDbg) exStart 8 =
      [⟨0, 3, 24, .cipher (List.replicate 8 false)⟩, ⟨1, 5, 40, .plain 5 8⟩] := by decide +kernel
  simp only [okDone, Bool.and_eq_true, beq_iff_eq, Option.isNone_iff_eq_none, decide_eq_true_eq] at g1
  exact ⟨exDbg, exStart, b, 8, exDbgLate, s, hits, h2, h3, h1, ⟨g1.1.1.1, g1.1.1.2⟩, g1.1.2, h4, g1.2⟩

/-- The loop of C38 with the accumulator shown in each round: no `dbg` waits, three calls. -/
def exDbgLoop : List Inst := [⟨.loadI, [1, 3, 8]⟩, ⟨.loadI, [2, 0, 8]⟩, ⟨.loadI, [3, 1, 8]⟩, ⟨.add, [2, 2, 1]⟩, ⟨.dbg, [2, 0]⟩,
  ⟨.sub, [1, 1, 3]⟩, ⟨.branchNonZero, [1, -24]⟩, ⟨.ret, []⟩]

example : ∃ b, Returns parasol (code exDbgLoop) 16 exStart b ∧ Steady parasol (code exDbgLoop) dbgKey 16 exStart .none ∧
    debugCalls 1 (code exDbgLoop) exStart 16 = [⟨0, 4, 32, .plain 3 8⟩, ⟨0, 8, 32, .plain 5 8⟩, ⟨0, 12, 32, .plain 6 8⟩] := by
  obtain ⟨b, h2, _⟩ := Seq.returns_of_any (isa := parasol) (prog := code exDbgLoop) (n := 16) (a := exStart)
    (f := fun _ => true) (by decide +kernel)
  exact ⟨b, h2, Seq.steady_of_B _ _ _ (by decide +kernel), by decide +kernel⟩

/-- **C117, faults.** For every program and every schedule, steady or not: once an instruction has faulted, no debug handler is called any more, although instructions that were already dispatched still
execute. -/
theorem C117_faulted (handlers : Nat) (prog : Nat → Except Err Inst) (limit : Option Nat) (a : Regs) (ls ls' : List Label) (s s' : Proc) (hits hits' : List Hit) (e : Err)
    (h : ReachesObs handlers prog limit a ls s hits) (hf : s.fault = some e) (h' : ReachesObs handlers prog limit a (ls ++ ls') s' hits') : hits' = hits ∧ s'.fault = some e := by
  obtain ⟨pcs, hp⟩ := runObs_append (Inst.hit handlers) ls' ls _ _ _ _ h
  have h2 : _ = some (s', hits') := hp.symm.trans h'
  exact runObs_faulted (Inst.hit handlers) ls' s pcs hits _ hf h2

open Label in
/-- non-vacuity: the program ends without `ret` while a `dbg` waits for an encrypted byte: that is a fault, and the `dbg` that executes afterwards calls nothing. -/
example : ∃ s hits, ReachesObs 2 (code (exDbg.take 4)) none exStart [fetch, dispatched, exec 0 false, retire 0, resolve, fetch, dep, dispatched, exec 1 false,
    retire 1, resolve, fetch, dep, dispatched, exec 2 false, resolve, fetch, dep, dispatched, resolve, fetch, asyncDone 2, notify 2, retire 2, exec 3 true, retire 3] s hits ∧
    s.fault.isSome = true ∧ hits = [] := by
  obtain ⟨s, hits, h1, g1⟩ := of_finalObs (handlers := 2) (p := exDbg.take 4) (a := exStart) (ls := [fetch, dispatched, exec 0 false, retire 0, resolve, fetch, dep, dispatched, exec 1 false,
    retire 1, resolve, fetch, dep, dispatched, exec 2 false, resolve, fetch, dep, dispatched, resolve, fetch, asyncDone 2, notify 2, retire 2, exec 3 true, retire 3])
    (f := fun s hits => s.fault.isSome && decide (hits = [])) (by decide +kernel)
  simp only [Bool.and_eq_true, decide_eq_true_eq] at g1
  exact ⟨s, hits, h1, g1⟩

end Spf.Props
