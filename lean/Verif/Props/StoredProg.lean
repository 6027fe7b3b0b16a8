import Verif.Proof.StoredProg
import Verif.Props.Machine
import Verif.Props.Isa
/-! C107: programs kept in the memory they compute on. -/
namespace Spf.Props
open Spf.Cpu hiding fetchInst
open Spf.Machine Spf.CtCpu
open Spf.Seq (Arch Returns Steady Slow slowStep StoredReturns KeepsCode OnlyRuns)

/-- the addresses of an instruction -/
def instBytes (pc : Nat) : List Nat := List.range' pc 8

theorem fetchWord_congr {α : Type} {m m' : VView α} {pc : Nat} : ∀ (k i : Nat), (∀ j, i ≤ j → j < i + k → m (pc + j) = m' (pc + j)) → fetchWord m pc k i = fetchWord m' pc k i
  | 0, _, _ => rfl
  | k + 1, i, h => by
    have ih := fetchWord_congr (m := m) (m' := m') (pc := pc) k (i + 1) fun j h1 h2 => h j (by omega) (by omega)
    simp only [fetchWord, tryOffset]
    by_cases hp : pc + i < addrSpace
    · rw [if_pos hp]; simp only; rw [h i (Nat.le_refl _) (by omega), ih]
    · rw [if_neg hp]

/-- The instruction at an address depends on the eight bytes there only. -/
theorem fetch_local {α : Type} (m m' : VView α) (pc : Nat) (h : ∀ x ∈ instBytes pc, m x = m' x) : fetchInst m pc = fetchInst m' pc := by
  unfold fetchInst
  rw [fetchWord_congr 8 0 fun j _ hj => h _ (by simp only [instBytes, List.mem_range'_1]; omega)]

/-- byte `j` of the little-endian encoding of an instruction -/
def codeByte (i : Inst) (j : Nat) : BitVec 8 :=
  match i.encode with
  | .ok w => BitVec.ofNat 8 (w / 256 ^ j)
  | .error _ => 0

theorem fetchWord_value {α : Type} {m : VView α} {pc w : Nat} (hpc : pc + 8 ≤ 2 ^ 32) : ∀ (k i : Nat), i + k ≤ 8 →
    (∀ j, i ≤ j → j < i + k → m (pc + j) = some (.plain (BitVec.ofNat 8 (w / 256 ^ j)))) → fetchWord m pc k i = .ok (w / 256 ^ i % 256 ^ k)
  | 0, i, _, _ => by simp [fetchWord, Nat.mod_one]
  | k + 1, i, hk, h => by
    have ih := fetchWord_value (m := m) (w := w) hpc k (i + 1) (by omega) fun j h1 h2 => h j (by omega) (by omega)
    simp only [fetchWord, tryOffset]
    rw [if_pos (by unfold addrSpace; omega)]; simp only
    rw [h i (Nat.le_refl _) (by omega)]; simp only
    rw [ih]
    simp only [BitVec.toNat_ofNat]
    congr 1
    rw [Nat.pow_succ 256 i, ← Nat.div_div_eq_div_mul, Nat.pow_succ 256 k, Nat.mul_comm (256 ^ k) 256, Nat.mod_mul]

/-- **C107, the code in memory.** Where the memory holds the encoding of a legal instruction, at an aligned address, this instruction is fetched. -/
theorem C107_image {α : Type} (m : VView α) (i : Inst) (hi : Legal i) (pc : Nat) (h8 : pc % 8 = 0) (hpc : pc + 8 ≤ 2 ^ 32)
    (hm : ∀ j, j < 8 → m (pc + j) = some (.plain (codeByte i j))) : fetchInst m pc = .ok i := by
  obtain ⟨w, h1, h2, h3⟩ := C27_roundtrip i hi
  have hc : ∀ j, codeByte i j = BitVec.ofNat 8 (w / 256 ^ j) := fun j => by unfold codeByte; rw [h1]
  unfold fetchInst
  rw [if_neg (by omega), fetchWord_value (w := w) hpc 8 0 (by omega) fun j _ hj => by rw [hm j (by omega), hc]]
  simp only [Nat.pow_zero, Nat.div_one]
  rw [Nat.mod_eq_of_lt (by simpa using h2), h3]

/-- The processor whose program is in the memory, started in `a`, gets to `s` under the schedule `ls`. -/
def ReachesM (limit : Option Nat) (a : Regs) (ls : List Label) (s : Proc) : Prop :=
  runM parasol fetchInst a.reg limit (start parasol a.mem a.pc blankEntry) ls = some s

/-- **C107.** The processor reads each instruction from the memory at the moment it is fetched, while stores may be pending. Let the program return when its instructions are read and executed one at a time, let
none of them change the code (`KeepsCode`: the bytes of all executed instructions, and anything else put into `code`), and let it be steady (C38). Then under every schedule there is no fault, the number of steps is bounded, the run can be continued until
`run_program` returns, and then memory and registers are those of program order. -/
theorem C107_stored_program (limit : Option Nat) (a b : Regs) (N : Nat) (code : Nat → Prop) (hlim : ∀ L, limit = some L → 500000 ≤ L)
    (hr : StoredReturns parasol fetchInst N a b) (hk : KeepsCode parasol fetchInst instBytes code N a) (hst : Steady parasol (fetchInst a.mem) Inst.key N a .none) :
    ∃ bound, ∀ ls s, ReachesM limit a ls s → s.fault = none ∧ ls.length ≤ bound ∧ (s.done ∨ ∃ l s', stepM parasol fetchInst a.reg limit s l = some s') ∧
      (s.done → s.n = N ∧ s.mem = b.mem ∧ ∀ r, regOf a s r = b.reg r) := by
  obtain ⟨r1, r2, r3⟩ := stored_returns fetch_local a.mem N a b (fun _ _ => rfl) hr hk
  obtain ⟨W, hW0, hok⟩ := ok_of_steady N a b .none r1 hst
  obtain ⟨bound, hb⟩ := C39_termination (fetchInst a.mem) limit a b N hlim r1 hst
  refine ⟨bound, fun ls s h => ?_⟩
  obtain ⟨e1, e2⟩ := runM_eq (limit := limit) fetch_local local_parasol (limit_high hlim) N W hok hW0 r2 r3 ls (wf_start _ _ _ _) (sem_start a blankEntry) (late_start N W hok.pos blankEntry)
  have hreach : Reaches (fetchInst a.mem) limit a ls s := e1.symm.trans h
  obtain ⟨b1, b2, _⟩ := hb ls s hreach
  obtain ⟨c1, c2⟩ := C38_steady_partial (fetchInst a.mem) limit a b N hlim r1 hst ls s hreach
  refine ⟨c1, b1, b2.imp id fun ⟨l, s', hs⟩ => ⟨l, s', ?_⟩, c2⟩
  rw [e2 s h l]; exact hs

/-- the 64-bit words `l` from address 0 on -/
def imageOf {α : Type} (l : List Nat) (rest : VView α) : VView α := fun x =>
  match l[x / 8]? with
  | some w => some (.plain (BitVec.ofNat 8 (w / 256 ^ (x % 8))))
  | none => rest x

/-- a decidable form of the hypotheses of C107: the instructions executed are `path`; they are below `c`, nothing below `c` is accessed, and they are steady -/
def storedB (f : Regs → Bool) (c : Nat) : List (Nat × Inst) → Regs → Slow Nat → Bool
  | [], _, _ => false
  | (pc, i) :: path, a, w => a.pc == pc && decide (pc + 8 ≤ c) && fetchInst a.mem pc == .ok i && (tAddrs parasol (fun _ => .ok i) a).all (fun x => decide (c ≤ x)) &&
    ((parasol.srcs i).take i.key).all (fun r => !w.reg r) && match Seq.step parasol (fun _ => .ok i) a with
    | .error _ => false
    | .ok (a', true) => path.isEmpty && f a'
    | .ok (a', false) => storedB f c path a' (slowStep parasol i a w)

theorem step_frame {I V A B : Type} {isa : Isa I V A B} {key : I → Nat} (hloc : Seq.Local isa key) {prog : Nat → Except Err I} {a a' : Arch V A B} {halted : Bool}
    (h : Seq.step isa prog a = .ok (a', halted)) {x : A} (hx : x ∉ tAddrs isa prog a) : a'.mem x = a.mem x := by
  have hm := (tNext_step h).1
  rw [← hm]
  unfold Seq.step at h
  simp only [tNext, tOut, tAddrs] at hx ⊢
  cases hp : prog a.pc with
  | error e => rfl
  | ok inst =>
    rw [hp] at h hx; simp only [Seq.effect] at h hx ⊢
    cases hacc : isa.access inst ((isa.srcs inst).map a.reg) with
    | error e => rw [hacc] at h; cases h
    | ok l =>
      rw [hacc] at hx
      cases hex : isa.exec inst ((isa.srcs inst).map a.reg) a.mem with
      | error e => rfl
      | ok p => exact hloc.exec_frame inst _ l a.mem p.1 p.2 x hacc hex hx

theorem stored_of_B {f : Regs → Bool} {c : Nat} {m0 : VView Bool} {Q : Inst → Prop} : ∀ (path : List (Nat × Inst)) (a : Regs) (w : Slow Nat), storedB f c path a w = true → (∀ x, x < c → a.mem x = m0 x) →
    (∀ p ∈ path, Q p.2) → ∃ b, StoredReturns parasol fetchInst path.length a b ∧ f b = true ∧ KeepsCode parasol fetchInst instBytes (· < c) path.length a ∧
      Steady parasol (fetchInst m0) Inst.key path.length a w ∧ OnlyRuns parasol fetchInst Q path.length a
  | [], _, _, h, _, _ => by cases h
  | (pc, i) :: path, a, w, h, hm, hq => by
    unfold storedB at h
    simp only [Bool.and_eq_true, decide_eq_true_eq, List.all_eq_true, beq_iff_eq] at h
    obtain ⟨⟨⟨⟨⟨rfl, h1⟩, h0⟩, h3⟩, h4⟩, h2⟩ := h
    have hb : ∀ x ∈ instBytes a.pc, x < c := fun x hx => by simp only [instBytes, List.mem_range'_1] at hx; omega
    have h0' : fetchInst m0 a.pc = .ok i := (fetch_local _ _ _ fun x hx => (hm x (hb x hx)).symm).trans h0
    have hs : Seq.step parasol (fetchInst a.mem) a = Seq.step parasol (fun _ => .ok i) a := seq_step_congr h0
    have hs' : Seq.step parasol (fetchInst m0) a = Seq.step parasol (fun _ => .ok i) a := seq_step_congr h0'
    have hQ : ∀ i', fetchInst a.mem a.pc = .ok i' → Q i' := fun i' hi => by
      rw [h0] at hi; cases hi; exact hq (a.pc, i) (by simp)
    simp only [List.length_cons]
    unfold StoredReturns KeepsCode Steady OnlyRuns
    rw [hs, hs', h0']
    cases hst : Seq.step parasol (fun _ => .ok i) a with
    | error e => rw [hst] at h2; cases h2
    | ok r =>
      obtain ⟨a', halted⟩ := r
      rw [hst] at h2
      have hkeep : ∀ x, x < c → a'.mem x = a.mem x := fun x hx => step_frame local_parasol hst fun hm => absurd (h3 x hm) (by omega)
      have hsl : ∀ r ∈ (parasol.srcs i).take i.key, w.reg r = false := fun r hr => by simpa using h4 r hr
      cases halted with
      | true =>
        simp only [Bool.and_eq_true, List.isEmpty_iff] at h2
        obtain ⟨rfl, h5⟩ := h2
        exact ⟨a', ⟨rfl, rfl⟩, h5, ⟨hb, hkeep, trivial⟩, ⟨hsl, trivial⟩, hQ, trivial⟩
      | false =>
        obtain ⟨b, i1, i2, i3, i4, i5⟩ := stored_of_B path a' _ h2 (fun x hx => (hkeep x hx).trans (hm x hx)) (fun p hp => hq p (by simp [hp]))
        exact ⟨b, i1, i2, ⟨hb, hkeep, i3⟩, ⟨hsl, i4⟩, hQ, i5⟩

/-- the instructions of a program without branches -/
def straight (l : List Inst) : List (Nat × Inst) := l.zipIdx.map fun p => (8 * p.2, p.1)

/-- the encoding of the program of C38 without the branch -/
def exStoredWords : List Nat := [2251799880794634, 8421641, 17201, 8438273, 562949953504266, 8454657, 8422921, 186]

example : (exRace.take 7 ++ [(⟨.ret, []⟩ : Inst)]).map Inst.encode = exStoredWords.map .ok := by decide +kernel

/-- the program of C38 without the branch, in memory at address 0 (see `C107_image`), the encrypted byte at 4096 -/
def exStored : Regs := { exStart with mem := imageOf exStoredWords exStart.mem }

theorem stored_ex {f : Regs → Bool} {c n : Nat} {path : List (Nat × Inst)} {a : Regs} {R : Regs → Prop} (h : storedB f c path a .none = true) (hn : path.length = n) (hR : ∀ b, f b = true → R b) :
    ∃ b, StoredReturns parasol fetchInst n a b ∧ R b ∧ KeepsCode parasol fetchInst instBytes (· < c) n a ∧ Steady parasol (fetchInst a.mem) Inst.key n a .none := by
  subst hn
  obtain ⟨b, h1, h2, h3, h4, _⟩ := stored_of_B (m0 := a.mem) (Q := fun _ => True) path a .none h (fun _ _ => rfl) (fun _ _ => trivial)
  exact ⟨b, h1, hR b h2, h3, h4⟩

theorem exStored_ok : storedB (fun b => b.reg 6 == .plain 5 8) 64 (straight (exRace.take 7 ++ [⟨.ret, []⟩])) exStored .none = true := by decide +kernel

example : ∃ b, StoredReturns parasol fetchInst 8 exStored b ∧ b.reg 6 = .plain 5 8 ∧ KeepsCode parasol fetchInst instBytes (· < 64) 8 exStored ∧
    Steady parasol (fetchInst exStored.mem) Inst.key 8 exStored .none := by
  exact stored_ex (R := fun b => b.reg 6 = .plain 5 8) exStored_ok rfl fun b h => by simpa using h

/-- Negates the encrypted byte, stores the result, and then the plaintext 134, over a byte of instruction 7: this changes its immediate operand from 1 to 2. -/
def exSelf : List Inst := [⟨.loadI, [2, 4096, 32]⟩, ⟨.load, [1, 2, 8, 0]⟩, ⟨.not, [3, 1]⟩, ⟨.loadI, [5, 57, 32]⟩, ⟨.store, [5, 3, 8, 0]⟩, ⟨.loadI, [4, 134, 8]⟩,
  ⟨.store, [5, 4, 8, 0]⟩, ⟨.loadI, [6, 1, 8]⟩, ⟨.ret, []⟩]

/-- its encoding -/
def exSelfWords : List Nat := [2251799880794634, 8421641, 17201, 2251799814620426, 8439041, 562949955617802, 8455425, 562949953439242, 186]

example : exSelf.map Inst.encode = exSelfWords.map .ok := by decide +kernel

def exSelfStart : Regs := { exStart with mem := imageOf exSelfWords exStart.mem }

/-- a decidable form of `ReachesM`: each fetch comes with its address and instruction -/
def runP (init : Nat → Reg) : Proc → List (Label × Nat × Inst) → Option Proc
  | s, [] => some s
  | s, (l, pc, i) :: ls => if l = .fetch then
      (if s.pc = pc ∧ fetchInst s.mem pc = .ok i then (match step parasol (fun _ => .ok i) init none s l with | none => none | some s' => runP init s' ls) else none)
    else match step parasol (fun _ => .ok i) init none s l with | none => none | some s' => runP init s' ls

theorem runM_of_P {init : Nat → Reg} : ∀ (ls : List (Label × Nat × Inst)) (s s' : Proc), runP init s ls = some s' → runM parasol fetchInst init none s (ls.map Prod.fst) = some s'
  | [], _, _, h => h
  | (l, pc, i) :: ls, s, s', h => by
    unfold runP at h
    have main : ∃ s1, step parasol (fetchInst s.mem) init none s l = some s1 ∧ runP init s1 ls = some s' := by
      by_cases hl : l = .fetch
      · rw [if_pos hl] at h
        by_cases hc : s.pc = pc ∧ fetchInst s.mem pc = .ok i
        · rw [if_pos hc] at h
          rw [step_congr (p' := fun _ => .ok i) l fun _ => by rw [hc.1, hc.2]]
          cases hst : step parasol (fun _ => .ok i) init none s l with
          | none => rw [hst] at h; cases h
          | some s1 => rw [hst] at h; exact ⟨s1, rfl, h⟩
        · rw [if_neg hc] at h; cases h
      · rw [if_neg hl] at h
        have e : step parasol (fetchInst s.mem) init none s l = step parasol (fun _ => .ok i) init none s l := by
          cases l with
          | fetch => exact absurd rfl hl
          | _ => rfl
        rw [e]
        cases hst : step parasol (fun _ => .ok i) init none s l with
        | none => rw [hst] at h; cases h
        | some s1 => rw [hst] at h; exact ⟨s1, rfl, h⟩
    obtain ⟨s1, e1, e2⟩ := main
    simp only [List.map_cons, runM, stepM, e1]
    exact runM_of_P ls s1 s' e2

open Label in
/-- a schedule, with the instructions fetched: the background computation of instruction 2 takes its time, and the stores wait for it -/
def exSelfSteps : List (Label × Nat × Inst) :=
  let x : Nat × Inst := (0, ⟨.ret, []⟩)
  [(fetch, 0, ⟨.loadI, [2, 4096, 32]⟩), (dispatched, x), (exec 0 false, x), (retire 0, x), (resolve, x), (fetch, 8, ⟨.load, [1, 2, 8, 0]⟩), (dep, x), (dispatched, x), (exec 1 false, x), (retire 1, x), (resolve, x),
  (fetch, 16, ⟨.not, [3, 1]⟩), (dep, x), (dispatched, x), (exec 2 false, x), (resolve, x), (fetch, 24, ⟨.loadI, [5, 57, 32]⟩), (dispatched, x), (exec 3 false, x), (retire 3, x), (resolve, x),
  (fetch, 32, ⟨.store, [5, 3, 8, 0]⟩), (dep, x), (dep, x), (dispatched, x), (resolve, x),
  (fetch, 40, ⟨.loadI, [4, 134, 8]⟩), (dispatched, x), (exec 5 false, x), (retire 5, x), (resolve, x), (fetch, 48, ⟨.store, [5, 4, 8, 0]⟩), (dep, x), (dep, x), (dep, x), (dispatched, x), (resolve, x),
  (fetch, 56, ⟨.loadI, [6, 1, 8]⟩), (dispatched, x), (exec 7 false, x), (retire 7, x), (resolve, x),
  (fetch, 64, ⟨.ret, []⟩), (dispatched, x), (exec 8 false, x), (retire 8, x), (resolve, x), (asyncDone 2, x), (notify 2, x), (retire 2, x), (exec 4 true, x), (notify 4, x), (retire 4, x), (exec 6 false, x), (retire 6, x)]

/-- the instructions in program order -/
def exSelfPath : List (Nat × Inst) := straight (exSelf.take 7 ++ [⟨.loadI, [6, 2, 8]⟩, ⟨.ret, []⟩])

/-- a decidable form of `StoredReturns`, the instructions being `path` -/
def runStored : List (Nat × Inst) → Regs → Option Regs
  | [], _ => none
  | (pc, i) :: path, a => if a.pc = pc ∧ fetchInst a.mem pc = .ok i then (match Seq.step parasol (fun _ => .ok i) a with
    | .error _ => none
    | .ok (a', true) => if path = [] then some a' else none
    | .ok (a', false) => runStored path a') else none

theorem runStored_ok : ∀ (path : List (Nat × Inst)) (a b : Regs), runStored path a = some b → StoredReturns parasol fetchInst path.length a b
  | [], _, _, h => by cases h
  | (pc, i) :: path, a, b, h => by
    unfold runStored at h
    simp only [List.length_cons]
    unfold StoredReturns
    by_cases hc : a.pc = pc ∧ fetchInst a.mem pc = .ok i
    · rw [if_pos hc] at h
      rw [seq_step_congr (isa := parasol) (p := fetchInst a.mem) (p' := fun _ => .ok i) (a := a) (by rw [hc.1, hc.2])]
      cases hst : Seq.step parasol (fun _ => .ok i) a with
      | error e => rw [hst] at h; cases h
      | ok r =>
        obtain ⟨a', halted⟩ := r
        rw [hst] at h
        cases halted with
        | true =>
          by_cases hn : path = []
          · simp only [if_pos hn] at h; cases h; exact ⟨by rw [hn]; rfl, rfl⟩
          · simp only [if_neg hn] at h; cases h
        | false => exact runStored_ok path a' b h
    · rw [if_neg hc] at h; cases h

theorem self_of {path : List (Nat × Inst)} {steps : List (Label × Nat × Inst)} {a : Regs} {u v : Reg} (h1 : (runStored path a).any (fun b => b.reg 6 == u) = true)
    (h2 : (runP a.reg (start parasol a.mem a.pc blankEntry) steps).any (fun s => okDone s && regOf a s 6 == v) = true) :
    ∃ (b : Regs) (ls : List Label) (s : Proc), StoredReturns parasol fetchInst path.length a b ∧ ReachesM none a ls s ∧ s.done ∧ s.fault = none ∧ b.reg 6 = u ∧ regOf a s 6 = v := by
  cases hb : runStored path a with
  | none => rw [hb] at h1; cases h1
  | some b =>
    rw [hb] at h1
    cases hr : runP a.reg (start parasol a.mem a.pc blankEntry) steps with
    | none => rw [hr] at h2; cases h2
    | some s =>
      rw [hr] at h2
      simp only [Option.any_some, okDone, Bool.and_eq_true, beq_iff_eq, Option.isNone_iff_eq_none] at h1 h2
      exact ⟨b, steps.map Prod.fst, s, runStored_ok path a b hb, runM_of_P steps _ _ hr, ⟨h2.1.1.1, h2.1.1.2⟩, h2.1.2, h1, h2.2⟩

theorem exSelf_seq : (runStored exSelfPath exSelfStart).any (fun b => b.reg 6 == .plain 2 8) = true := by decide +kernel

theorem exSelf_late : (runP exSelfStart.reg (start parasol exSelfStart.mem exSelfStart.pc blankEntry) exSelfSteps).any (fun s => okDone s && regOf exSelfStart s 6 == .plain 1 8) = true := by
  decide +kernel

/-- **C107 is false for programs that overwrite their own code.** In program order the new instruction is executed and register 6 is 2. The processor may fetch the old instruction while the store is pending: it
returns without a fault, and register 6 is 1, although all loads, stores and branches are steady. -/
theorem C107_self_modifying_violated : ∃ (a b : Regs) (N : Nat) (ls : List Label) (s : Proc), StoredReturns parasol fetchInst N a b ∧ ReachesM none a ls s ∧ s.done ∧ s.fault = none ∧
    b.reg 6 = .plain 2 8 ∧ regOf a s 6 = .plain 1 8 :=
  have ⟨b, ls, s, h⟩ := self_of exSelf_seq exSelf_late
  ⟨exSelfStart, b, _, ls, s, h⟩

end Spf.Props
