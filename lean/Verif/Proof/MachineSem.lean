import Verif.Proof.MachineWF
import Verif.Spec.Machine
/-! Semantic invariant of the out-of-order machine: it follows the program-order execution. -/
namespace Spf.Machine
open Spf.Cpu (Err)
open Spf.Seq (Arch assign Local)

variable {I V A B : Type} [DecidableEq A]

/-! ### The program-order execution, continued past errors -/
section trace
variable (isa : Isa I V A B) (prog : Nat → Except Err I)

def tVals (a : Arch V A B) : List V :=
  match prog a.pc with
  | .ok inst => (isa.srcs inst).map a.reg
  | .error _ => []

def tAddrs (a : Arch V A B) : List A :=
  match prog a.pc with
  | .ok inst => match isa.access inst ((isa.srcs inst).map a.reg) with
    | .ok l => l
    | .error _ => []
  | .error _ => []

def tOut (a : Arch V A B) : List V × (A → B) :=
  match prog a.pc with
  | .ok inst => match isa.exec inst ((isa.srcs inst).map a.reg) a.mem with
    | .ok p => p
    | .error _ => ([], a.mem)
  | .error _ => ([], a.mem)

def tDsts (a : Arch V A B) : List Nat :=
  match prog a.pc with
  | .ok inst => isa.dsts inst
  | .error _ => []

def tPc (a : Arch V A B) : Nat :=
  match prog a.pc with
  | .ok inst => match isa.next inst a.pc ((isa.srcs inst).map a.reg) with
    | .ok p => p
    | .error _ => a.pc
  | .error _ => a.pc

def tNext (a : Arch V A B) : Arch V A B :=
  { reg := assign a.reg isa.dflt (tOut isa prog a).1 0 (tDsts isa prog a)
    mem := (tOut isa prog a).2
    pc := tPc isa prog a }

def T (a0 : Arch V A B) : Nat → Arch V A B
  | 0 => a0
  | k + 1 => tNext isa prog (T a0 k)

def rho (a0 : Arch V A B) : Nat → Nat → Src
  | 0 => .init
  | k + 1 => renameAll (rho a0 k) k 0 (tDsts isa prog (T isa prog a0 k))

def lastAcc (a0 : Arch V A B) : Nat → A → Option Nat
  | 0 => fun _ => none
  | k + 1 => markInflight (lastAcc a0 k) (tAddrs isa prog (T isa prog a0 k)) k

/-- final contents of a cell -/
def sval (a0 : Arch V A B) : Src → V
  | .init r => a0.reg r
  | .out i k => (tOut isa prog (T isa prog a0 i)).1.getD k isa.dflt

omit [DecidableEq A] in
theorem assign_rename (a0 : Arch V A B) (i : Nat) : ∀ (ds : List Nat) (k : Nat) (reg : Nat → V) (ρ : Nat → Src),
    (∀ r, reg r = sval isa prog a0 (ρ r)) →
    ∀ r, assign reg isa.dflt (tOut isa prog (T isa prog a0 i)).1 k ds r = sval isa prog a0 (renameAll ρ i k ds r) := by
  intro ds
  induction ds with
  | nil => intro k reg ρ h r; exact h r
  | cons d ds ih =>
    intro k reg ρ h r
    simp only [assign, renameAll]
    apply ih
    intro r'
    split
    · rfl
    · exact h r'

omit [DecidableEq A] in
theorem reg_rho (a0 : Arch V A B) (k : Nat) (r : Nat) : (T isa prog a0 k).reg r = sval isa prog a0 (rho isa prog a0 k r) := by
  induction k generalizing r with
  | zero => rfl
  | succ k ih => simp only [T, tNext, rho]; exact assign_rename isa prog a0 k _ 0 _ _ ih r

omit [DecidableEq A] in
theorem rho_lt (a0 : Arch V A B) (k : Nat) : ∀ r i, (rho isa prog a0 k r).producer = some i → i < k := by
  induction k with
  | zero => intro r i h; simp [rho, Src.producer] at h
  | succ k ih =>
    intro r i h
    simp only [rho] at h
    rcases renameAll_producer _ _ _ _ _ _ h with h1 | h1
    · omega
    · have := ih r i h1; omega

theorem lastAcc_some (a0 : Arch V A B) (k : Nat) (a : A) (i : Nat) (h : lastAcc isa prog a0 k a = some i) :
    i < k ∧ a ∈ tAddrs isa prog (T isa prog a0 i) := by
  induction k with
  | zero => simp [lastAcc] at h
  | succ k ih =>
    simp only [lastAcc, markInflight] at h
    split at h
    · injection h with h; subst h; exact ⟨by omega, by assumption⟩
    · have := ih h; exact ⟨by omega, this.2⟩

/-- the last accessor before `k` -/
theorem lastAcc_ge (a0 : Arch V A B) (k : Nat) (a : A) (i : Nat) (hi : i < k) (ha : a ∈ tAddrs isa prog (T isa prog a0 i)) :
    ∃ m, lastAcc isa prog a0 k a = some m ∧ i ≤ m := by
  induction k with
  | zero => omega
  | succ k ih =>
    simp only [lastAcc, markInflight]
    by_cases h : a ∈ tAddrs isa prog (T isa prog a0 k)
    · rw [if_pos h]; exact ⟨k, rfl, by omega⟩
    · rw [if_neg h]
      have : i ≠ k := by intro hh; subst hh; exact h ha
      exact ih (by omega)

end trace

/-! ### The invariant -/

/-- executed -/
def Ex (s : St I V A B) (i : Nat) : Prop := (s.ent i).status.executed = true

structure Sem (isa : Isa I V A B) (prog : Nat → Except Err I) (a0 : Arch V A B) (s : St I V A B) : Prop where
  inst : ∀ i, i < s.n → prog (T isa prog a0 i).pc = .ok (s.ent i).inst
  srcs : ∀ i, i < s.n → (s.ent i).srcs = (isa.srcs (s.ent i).inst).map (rho isa prog a0 i)
  ren : s.rename = rho isa prog a0 s.n
  acc : ∀ i, i < s.n → isa.access (s.ent i).inst (tVals isa prog (T isa prog a0 i)) = .ok (s.ent i).addrs
  need : ∀ i, i < s.n → (s.ent i).need =
    (s.ent i).srcs.filterMap Src.producer ++ memDeps (lastAcc isa prog a0 i) (s.ent i).addrs
  infl : s.inflight = lastAcc isa prog a0 s.n
  done : ∀ i, i < s.n → Ex s i →
    (∃ p, isa.exec (s.ent i).inst (tVals isa prog (T isa prog a0 i)) (T isa prog a0 i).mem = .ok p) ∧
    ∀ k, s.vals i k = (tOut isa prog (T isa prog a0 i)).1.getD k isa.dflt
  mem : ∀ a j, j ≤ s.n → (∀ i, i < j → a ∈ (s.ent i).addrs → Ex s i) →
    (∀ i, j ≤ i → i < s.n → a ∈ (s.ent i).addrs → ¬ Ex s i) → s.mem a = (T isa prog a0 j).mem a
  pcF : s.front = .fetch → s.pc = (T isa prog a0 s.n).pc
  pcR : ∀ i g, s.front = .resolve i g → s.pc = (T isa prog a0 i).pc
  pcS : s.front = .stopped → ∃ i, s.n = i + 1 ∧
    isa.next (s.ent i).inst (T isa prog a0 i).pc (tVals isa prog (T isa prog a0 i)) = .error .halt
  nxt : ∀ i, (i + 1 < s.n ∨ (i < s.n ∧ s.front = .fetch)) →
    ∃ p, isa.next (s.ent i).inst (T isa prog a0 i).pc (tVals isa prog (T isa prog a0 i)) = .ok p

section
variable {isa : Isa I V A B} {prog : Nat → Except Err I} {a0 : Arch V A B} {s s' : St I V A B} {key : I → Nat}

theorem Sem.congr (h : Sem isa prog a0 s) (hn : s'.n = s.n) (hi : ∀ j, (s'.ent j).inst = (s.ent j).inst)
    (hsr : ∀ j, (s'.ent j).srcs = (s.ent j).srcs) (ha : ∀ j, (s'.ent j).addrs = (s.ent j).addrs)
    (hnd : ∀ j, (s'.ent j).need = (s.ent j).need) (hex : ∀ j, j < s.n → (Ex s' j ↔ Ex s j)) (hv : s'.vals = s.vals)
    (hr : s'.rename = s.rename) (hm : s'.mem = s.mem) (hinf : s'.inflight = s.inflight) (hpc : s'.pc = s.pc)
    (hf : s'.front = s.front) : Sem isa prog a0 s' := by
  constructor
  · intro i hi'; rw [hn] at hi'; rw [hi]; exact h.inst i hi'
  · intro i hi'; rw [hn] at hi'; rw [hi, hsr]; exact h.srcs i hi'
  · rw [hr, hn]; exact h.ren
  · intro i hi'; rw [hn] at hi'; rw [hi, ha]; exact h.acc i hi'
  · intro i hi'; rw [hn] at hi'; rw [hnd, hsr, ha]; exact h.need i hi'
  · rw [hinf, hn]; exact h.infl
  · intro i hi' he; rw [hn] at hi'; rw [hi, hv]; exact h.done i hi' ((hex i hi').1 he)
  · intro a j hj h1 h2; rw [hn] at hj; rw [hm]
    apply h.mem a j hj
    · intro i hij hai; exact (hex i (by omega)).1 (h1 i hij (by rw [ha]; exact hai))
    · intro i hij hin hai he; exact h2 i hij (by rw [hn]; exact hin) (by rw [ha]; exact hai) ((hex i hin).2 he)
  · intro hh; rw [hf] at hh; rw [hpc, hn]; exact h.pcF hh
  · intro i g hh; rw [hf] at hh; rw [hpc]; exact h.pcR i g hh
  · intro hh; rw [hf] at hh; obtain ⟨i, h1, h2⟩ := h.pcS hh; exact ⟨i, by rw [hn]; exact h1, by rw [hi]; exact h2⟩
  · intro i hh; rw [hn, hf] at hh; rw [hi]; exact h.nxt i hh

theorem tVals_eq (h : Sem isa prog a0 s) {i : Nat} (hi : i < s.n) :
    tVals isa prog (T isa prog a0 i) = (s.ent i).srcs.map (sval isa prog a0) := by
  unfold tVals; rw [h.inst i hi]; dsimp only; rw [h.srcs i hi, List.map_map]
  apply List.map_congr_left; intro r _; exact reg_rho isa prog a0 i r

theorem tAddrs_eq (h : Sem isa prog a0 s) {i : Nat} (hi : i < s.n) : tAddrs isa prog (T isa prog a0 i) = (s.ent i).addrs := by
  have h1 := h.acc i hi
  unfold tVals at h1; unfold tAddrs
  rw [h.inst i hi] at h1 ⊢; dsimp only at h1 ⊢; rw [h1]

/-- an executed instruction's dependencies are executed -/
theorem need_ex (hw : WF s) {i d : Nat} (hi : i < s.n) (hd : d ∈ (s.ent i).need) (he : Ex s i) : Ex s d := by
  have hnw : (s.ent i).status ≠ .waiting := by
    intro hh; unfold Ex at he; rw [hh] at he; simp [Status.executed] at he
  rcases hw.needOk i hi d hd with h1 | ⟨p, h1, _⟩ | h1 | h1 | h1
  · have := hw.needLt i hi d hd
    exact absurd (hw.dep d (by omega) i h1).2.1 hnw
  · exact absurd (hw.mainD i p h1).2.2.1 hnw
  · exact absurd (hw.lostW i h1).2.1 hnw
  · unfold Ex; rw [h1]; rfl
  · unfold Ex; rw [h1]; rfl

/-- so are those of a ready one -/
theorem need_ready (hw : WF s) {i d : Nat} (hi : i < s.n) (h0 : (s.ent i).deps = 0)
    (hd : d ∈ (s.ent i).need) : (s.ent d).status = .retiring ∨ (s.ent d).status = .retired := by
  have ht := hw.deps i hi
  rw [h0, lostTok_none] at ht
  unfold tokens at ht
  rcases hw.needOk i hi d hd with h1 | ⟨p, h1, _⟩ | h1 | h1
  · have hdi := hw.needLt i hi d hd
    have h2 : 0 < (s.ent d).dependents.count i := List.count_pos_iff.2 h1
    have := le_sumTo (fun d => (s.ent d).dependents.count i) s.n d (by omega)
    omega
  · rw [h1] at ht; simp [Main.disp] at ht; omega
  · rw [h1] at ht; simp [lostTok] at ht
  · exact h1

theorem need_ready_ex (hw : WF s) {i d : Nat} (hi : i < s.n) (h0 : (s.ent i).deps = 0) (hd : d ∈ (s.ent i).need) : Ex s d := by
  rcases need_ready hw hi h0 hd with h | h <;> (unfold Ex; rw [h]; rfl)

/-- accesses to one address happen in program order -/
theorem acc_order (hw : WF s) (h : Sem isa prog a0 s) (a : A) : ∀ (j : Nat), j < s.n → a ∈ (s.ent j).addrs →
    (∀ d ∈ (s.ent j).need, Ex s d) → ∀ i, i < j → a ∈ (s.ent i).addrs → Ex s i := by
  intro j
  induction j using Nat.strongRecOn with
  | ind j ih =>
    intro hj haj hn i hij hai
    obtain ⟨m, hm, him⟩ := lastAcc_ge isa prog a0 j a i hij (by rw [tAddrs_eq h (by omega)]; exact hai)
    obtain ⟨hmj, hma⟩ := lastAcc_some isa prog a0 j a m hm
    rw [tAddrs_eq h (by omega)] at hma
    have hmn : m ∈ (s.ent j).need := by
      rw [h.need j hj]
      exact List.mem_append_right _ (List.mem_filterMap.2 ⟨a, haj, hm⟩)
    have hme := hn m hmn
    by_cases him' : i = m
    · subst him'; exact hme
    · exact ih m hmj (by omega) hma (fun d hd => need_ex hw (by omega) hd hme) i (by omega) hai

/-- The contents of a cell whose producer has executed are final. -/
theorem val_known (h : Sem isa prog a0 s) (src : Src) (hp : ∀ i, src.producer = some i → i < s.n ∧ Ex s i) :
    s.val a0.reg src = sval isa prog a0 src := by
  cases src with
  | init r => rfl
  | out i k =>
    obtain ⟨h1, h2⟩ := hp i rfl
    exact (h.done i h1 h2).2 k

/-! ### The timeliness condition -/

/-- the cell holds its final contents -/
def known (s : St I V A B) (src : Src) : Prop := ∀ i, src.producer = some i → Ex s i

/-- When an instruction is fetched, and when its successor is determined, the first `key` sources are known. -/
def timelyAt (isa : Isa I V A B) (prog : Nat → Except Err I) (key : I → Nat) (s : St I V A B) : Label → Prop
  | .fetch => ∀ inst, prog s.pc = .ok inst → ∀ src ∈ ((isa.srcs inst).map s.rename).take (key inst), known s src
  | .resolve => ∀ i g, s.front = .resolve i g → ∀ src ∈ (s.ent i).srcs.take (key (s.ent i).inst), known s src
  | _ => True

/-! ### Preservation -/

theorem setEnt_field {X : Type} (p : Entry I A → X) (f : Nat → Entry I A) (i : Nat) (e : Entry I A) (h : p e = p (f i)) (j : Nat) :
    p (setEnt f i e j) = p (f j) := by
  by_cases hj : j = i
  · subst hj; simpa using h
  · rw [setEnt_ne _ _ hj]

theorem sem_decr (h : Sem isa prog a0 s) (i : Nat) (bg : Bool) : Sem isa prog a0 (decr s i bg) := by
  have hE : ∀ {X : Type} (p : Entry I A → X) (_ : ∀ e x, p { e with deps := x } = p e) (j : Nat),
      p ((decr s i bg).ent j) = p (s.ent j) := by
    intro X p hp j; unfold decr; dsimp only; split <;> exact setEnt_field p _ _ _ (hp _ _) j
  apply Sem.congr h
  · unfold decr; dsimp only; split <;> rfl
  · exact hE (·.inst) (fun _ _ => rfl)
  · exact hE (·.srcs) (fun _ _ => rfl)
  · exact hE (·.addrs) (fun _ _ => rfl)
  · exact hE (·.need) (fun _ _ => rfl)
  · intro j _; unfold Ex; rw [hE (·.status) (fun _ _ => rfl) j]
  all_goals (unfold decr; dsimp only; split <;> rfl)

theorem sem_dep (h : Sem isa prog a0 s) (i d : Nat) (ds : List Nat) : Sem isa prog a0 (depStep s i d ds) := by
  have hE : ∀ {X : Type} (p : Entry I A → X) (_ : ∀ e x, p { e with deps := x } = p e)
      (_ : ∀ e x, p { e with dependents := x } = p e) (j : Nat), p ((depStep s i d ds).ent j) = p (s.ent j) := by
    intro X p hp hq j; unfold depStep; dsimp only; split
    · dsimp only; rw [setEnt_field p _ _ _ (hp _ _) j, setEnt_field p _ _ _ (hq _ _) j]
    · rfl
  apply Sem.congr h
  · unfold depStep; dsimp only; split <;> rfl
  · exact hE (·.inst) (fun _ _ => rfl) (fun _ _ => rfl)
  · exact hE (·.srcs) (fun _ _ => rfl) (fun _ _ => rfl)
  · exact hE (·.addrs) (fun _ _ => rfl) (fun _ _ => rfl)
  · exact hE (·.need) (fun _ _ => rfl) (fun _ _ => rfl)
  · intro j _; unfold Ex; rw [hE (·.status) (fun _ _ => rfl) (fun _ _ => rfl) j]
  all_goals (unfold depStep; dsimp only; split <;> rfl)

theorem sem_notify (h : Sem isa prog a0 s) (i : Nat) : Sem isa prog a0 (notifyStep s i) := by
  unfold notifyStep
  split
  · exact h
  · rename_i d ds _
    apply sem_decr
    have hE : ∀ {X : Type} (p : Entry I A → X) (_ : ∀ e x, p { e with dependents := x } = p e) (j : Nat),
        p (setEnt s.ent i { s.ent i with dependents := ds } j) = p (s.ent j) :=
      fun p hp j => setEnt_field p _ _ _ (hp _ _) j
    apply Sem.congr h
    · rfl
    · exact hE (·.inst) (fun _ _ => rfl)
    · exact hE (·.srcs) (fun _ _ => rfl)
    · exact hE (·.addrs) (fun _ _ => rfl)
    · exact hE (·.need) (fun _ _ => rfl)
    · intro j _; unfold Ex; dsimp only; rw [hE (·.status) (fun _ _ => rfl) j]
    all_goals rfl

theorem sem_status (h : Sem isa prog a0 s) (i : Nat) (st : Status) (he : Ex s i) (hs : st.executed = true) (m : Main) (c : Nat) :
    Sem isa prog a0 { s with ent := setEnt s.ent i { s.ent i with status := st }, main := m, inflightCount := c } := by
  have hE : ∀ {X : Type} (p : Entry I A → X) (_ : ∀ e x, p { e with status := x } = p e) (j : Nat),
      p (setEnt s.ent i { s.ent i with status := st } j) = p (s.ent j) :=
    fun p hp j => setEnt_field p _ _ _ (hp _ _) j
  apply Sem.congr h
  · rfl
  · exact hE (·.inst) (fun _ _ => rfl)
  · exact hE (·.srcs) (fun _ _ => rfl)
  · exact hE (·.addrs) (fun _ _ => rfl)
  · exact hE (·.need) (fun _ _ => rfl)
  · intro j _; unfold Ex at he ⊢; dsimp only
    by_cases hj : j = i
    · subst hj; rw [setEnt_same]; simp [hs, he]
    · rw [setEnt_ne _ _ hj]
  all_goals rfl

theorem T_mem_succ (hloc : Local isa key) (h : Sem isa prog a0 s) {i : Nat} (hi : i < s.n) {a : A} (ha : a ∉ (s.ent i).addrs) :
    (T isa prog a0 (i + 1)).mem a = (T isa prog a0 i).mem a := by
  simp only [T, tNext]
  have h1 := h.acc i hi
  unfold tVals at h1
  unfold tOut
  rw [h.inst i hi] at h1 ⊢
  dsimp only at h1 ⊢
  split
  · rename_i p hp; obtain ⟨o, n⟩ := p
    exact hloc.exec_frame _ _ _ _ _ _ _ h1 hp ha
  · rfl

theorem T_mem_range (hloc : Local isa key) (h : Sem isa prog a0 s) {a : A} (i : Nat) : ∀ j, i ≤ j → j ≤ s.n →
    (∀ k, i ≤ k → k < j → a ∉ (s.ent k).addrs) → (T isa prog a0 j).mem a = (T isa prog a0 i).mem a := by
  intro j
  induction j with
  | zero => intro hij _ _; have : i = 0 := by omega
            subst this; rfl
  | succ j ih =>
    intro hij hjn hno
    by_cases hh : i = j + 1
    · subst hh; rfl
    · rw [T_mem_succ hloc h (by omega) (hno j (by omega) (by omega))]
      exact ih (by omega) (by omega) (fun k h1 h2 => hno k h1 (by omega))

/-- executing a ready instruction, with a successful result -/
theorem sem_exec_ok (hloc : Local isa key) (hw : WF s) (h : Sem isa prog a0 s) {i : Nat} (hi : i < s.n)
    (hwt : (s.ent i).status = .waiting) (h0 : (s.ent i).deps = 0) (outs : List V) (mem' : A → B)
    (hx : isa.exec (s.ent i).inst (s.srcVals a0.reg i) s.mem = .ok (outs, mem')) (st : Status) (hst : st.executed = true)
    (rd : List (Nat × Bool)) (m : Main) :
    Sem isa prog a0 { s with ready := rd, vals := writeOuts s.vals isa.dflt i outs, mem := mem',
                             ent := setEnt s.ent i { s.ent i with status := st }, main := m } := by
  have hnd : ∀ d ∈ (s.ent i).need, Ex s d := fun d hd => need_ready_ex hw hi h0 hd
  -- the source contents are final
  have hv : s.srcVals a0.reg i = tVals isa prog (T isa prog a0 i) := by
    rw [tVals_eq h hi]; unfold St.srcVals
    apply List.map_congr_left
    intro src hsrc
    apply val_known h
    intro p hp
    have : p ∈ (s.ent i).need := by
      rw [h.need i hi]; exact List.mem_append_left _ (List.mem_filterMap.2 ⟨src, hsrc, hp⟩)
    exact ⟨by have := hw.needLt i hi p this; omega, hnd p this⟩
  have hnex : ¬ Ex s i := by unfold Ex; rw [hwt]; simp [Status.executed]
  -- memory at the accessed addresses
  have hlater : ∀ a ∈ (s.ent i).addrs, ∀ j, i < j → j < s.n → a ∈ (s.ent j).addrs → ¬ Ex s j := by
    intro a ha j hij hj haj he
    exact hnex (acc_order hw h a j hj haj (fun d hd => need_ex hw hj hd he) i hij ha)
  have hprior : ∀ a ∈ (s.ent i).addrs, ∀ j, j < i → a ∈ (s.ent j).addrs → Ex s j :=
    fun a ha j hj haj => acc_order hw h a i hi ha hnd j hj haj
  have hmem : ∀ a ∈ (s.ent i).addrs, s.mem a = (T isa prog a0 i).mem a := by
    intro a ha
    apply h.mem a i (by omega) (hprior a ha)
    intro j hij hj haj
    by_cases hh : j = i
    · subst hh; exact hnex
    · exact hlater a ha j (by omega) hj haj
  rw [hv] at hx
  obtain ⟨n', hn', hagree⟩ := hloc.exec_ok _ _ _ _ _ _ _ (h.acc i hi) hmem hx
  have hout : tOut isa prog (T isa prog a0 i) = (outs, n') := by
    unfold tOut; unfold tVals at hn'; rw [h.inst i hi] at hn' ⊢; dsimp only at hn' ⊢; rw [hn']
  have hE : ∀ {X : Type} (p : Entry I A → X) (_ : ∀ e x, p { e with status := x } = p e) (j : Nat),
      p (setEnt s.ent i { s.ent i with status := st } j) = p (s.ent j) :=
    fun p hp j => setEnt_field p _ _ _ (hp _ _) j
  have hex : ∀ j, Ex { s with ready := rd, vals := writeOuts s.vals isa.dflt i outs, mem := mem', ent := setEnt s.ent i { s.ent i with status := st }, main := m } j ↔ (j = i ∨ Ex s j) := by
    intro j; unfold Ex; dsimp only
    by_cases hj : j = i
    · subst hj; rw [setEnt_same]; simp [hst]
    · rw [setEnt_ne _ _ hj]; simp [hj]
  constructor
  · intro j hj; dsimp only at hj ⊢; rw [hE (·.inst) (fun _ _ => rfl)]; exact h.inst j hj
  · intro j hj; dsimp only at hj ⊢; rw [hE (·.inst) (fun _ _ => rfl), hE (·.srcs) (fun _ _ => rfl)]; exact h.srcs j hj
  · exact h.ren
  · intro j hj; dsimp only at hj ⊢; rw [hE (·.inst) (fun _ _ => rfl), hE (·.addrs) (fun _ _ => rfl)]; exact h.acc j hj
  · intro j hj; dsimp only at hj ⊢
    rw [hE (·.need) (fun _ _ => rfl), hE (·.srcs) (fun _ _ => rfl), hE (·.addrs) (fun _ _ => rfl)]; exact h.need j hj
  · exact h.infl
  · intro j hj he
    dsimp only at hj ⊢
    rw [hE (·.inst) (fun _ _ => rfl)]
    by_cases hji : j = i
    · subst hji
      refine ⟨⟨_, hn'⟩, ?_⟩
      intro k; unfold writeOuts; rw [if_pos rfl, hout]
    · have he' : Ex s j := by
        rcases (hex j).1 he with h1 | h1
        · exact absurd h1 hji
        · exact h1
      obtain ⟨h1, h2⟩ := h.done j hj he'
      refine ⟨h1, ?_⟩
      intro k; unfold writeOuts; rw [if_neg hji]; exact h2 k
  · intro a j hj h1 h2
    dsimp only at hj ⊢
    by_cases ha : a ∈ (s.ent i).addrs
    · -- `i` is the last executed accessor
      have hij : i < j := by
        by_contra hh
        exact h2 i (by omega) hi (by dsimp only; rw [hE (·.addrs) (fun _ _ => rfl)]; exact ha) ((hex i).2 (Or.inl rfl))
      have hno : ∀ k, i + 1 ≤ k → k < j → a ∉ (s.ent k).addrs := by
        intro k hk1 hk2 hak
        have := h1 k hk2 (by dsimp only; rw [hE (·.addrs) (fun _ _ => rfl)]; exact hak)
        rcases (hex k).1 this with h3 | h3
        · omega
        · exact hlater a ha k (by omega) (by omega) hak h3
      rw [T_mem_range hloc h (i + 1) j (by omega) hj hno]
      simp only [T, tNext]; rw [hout]
      exact hagree a ha
    · rw [hloc.exec_frame _ _ _ _ _ _ _ (h.acc i hi) hx ha]
      apply h.mem a j hj
      · intro k hk hak
        have := h1 k hk (by dsimp only; rw [hE (·.addrs) (fun _ _ => rfl)]; exact hak)
        rcases (hex k).1 this with h3 | h3
        · subst h3; exact absurd hak ha
        · exact h3
      · intro k hk1 hk2 hak he
        exact h2 k hk1 hk2 (by dsimp only; rw [hE (·.addrs) (fun _ _ => rfl)]; exact hak) ((hex k).2 (Or.inr he))
  · exact h.pcF
  · exact h.pcR
  · intro hh; obtain ⟨k, h1, h2⟩ := h.pcS hh
    refine ⟨k, h1, ?_⟩; dsimp only; rw [hE (·.inst) (fun _ _ => rfl)]; exact h2
  · intro k hk; dsimp only at hk ⊢; rw [hE (·.inst) (fun _ _ => rfl)]; exact h.nxt k hk

/-- In a state where instruction `i` is ready, executing it agrees with program order. -/
theorem exec_agrees (hloc : Local isa key) (hw : WF s) (h : Sem isa prog a0 s) {i : Nat} (hi : i < s.n)
    (hwt : (s.ent i).status = .waiting) (h0 : (s.ent i).deps = 0) :
    s.srcVals a0.reg i = tVals isa prog (T isa prog a0 i) ∧
    ∀ a ∈ (s.ent i).addrs, s.mem a = (T isa prog a0 i).mem a := by
  have hnd : ∀ d ∈ (s.ent i).need, Ex s d := fun d hd => need_ready_ex hw hi h0 hd
  have hnex : ¬ Ex s i := by unfold Ex; rw [hwt]; simp [Status.executed]
  constructor
  · rw [tVals_eq h hi]; unfold St.srcVals
    apply List.map_congr_left
    intro src hsrc
    apply val_known h
    intro p hp
    have : p ∈ (s.ent i).need := by
      rw [h.need i hi]; exact List.mem_append_left _ (List.mem_filterMap.2 ⟨src, hsrc, hp⟩)
    exact ⟨by have := hw.needLt i hi p this; omega, hnd p this⟩
  · intro a ha
    apply h.mem a i (by omega) (fun j hj haj => acc_order hw h a i hi ha hnd j hj haj)
    intro j hij hj haj he
    by_cases hh : j = i
    · subst hh; exact hnex he
    · exact hnex (acc_order hw h a j hj haj (fun d hd => need_ex hw hj hd he) i (by omega) ha)

/-- the first `key` sources -/
theorem take_known (h : Sem isa prog a0 s) (srcs : List Src) (k : Nat)
    (hk : ∀ src ∈ srcs.take k, ∀ i, src.producer = some i → i < s.n ∧ Ex s i) :
    (srcs.map (s.val a0.reg)).take k = (srcs.map (sval isa prog a0)).take k := by
  rw [← List.map_take, ← List.map_take]
  apply List.map_congr_left
  intro src hsrc
  exact val_known h src (hk src hsrc)

theorem sem_resolve (hloc : Local isa key) (hw : WF s) (h : Sem isa prog a0 s) {i g : Nat} (hf : s.front = .resolve i g)
    (ht : timelyAt isa prog key s .resolve) (hfault : (resolveStep isa a0.reg s i g).fault = none) :
    Sem isa prog a0 (resolveStep isa a0.reg s i g) := by
  have hin := hw.frontR i g hf
  have hi : i < s.n := by omega
  have hnext : isa.next (s.ent i).inst s.pc (s.srcVals a0.reg i) =
      isa.next (s.ent i).inst (T isa prog a0 i).pc (tVals isa prog (T isa prog a0 i)) := by
    rw [h.pcR i g hf]
    apply hloc.next_key
    rw [tVals_eq h hi]
    apply take_known h
    intro src hsrc p hp
    have hp' : p ∈ (s.ent i).need := by
      rw [h.need i hi]; exact List.mem_append_left _ (List.mem_filterMap.2 ⟨src, List.mem_of_mem_take hsrc, hp⟩)
    exact ⟨by have := hw.needLt i hi p hp'; omega, ht i g hf src hsrc p hp⟩
  unfold resolveStep at hfault ⊢
  rw [hnext] at hfault ⊢
  split
  · rename_i p hp
    have hpc : (T isa prog a0 s.n).pc = p := by
      rw [← hin]; simp only [T, tNext]; unfold tPc; unfold tVals at hp
      rw [h.inst i hi] at hp ⊢; dsimp only at hp ⊢; rw [hp]
    exact
    { inst := h.inst, srcs := h.srcs, ren := h.ren, acc := h.acc, need := h.need, infl := h.infl, done := h.done, mem := h.mem
      pcF := fun _ => hpc.symm
      pcR := fun i g hh => by simp at hh
      pcS := fun hh => by simp at hh
      nxt := by
        intro k hk
        dsimp only at hk
        by_cases hki : k = i
        · subst hki; exact ⟨p, hp⟩
        · apply h.nxt k; left
          rcases hk with hk | ⟨hk, _⟩ <;> omega }
  · rename_i hp
    exact
    { inst := h.inst, srcs := h.srcs, ren := h.ren, acc := h.acc, need := h.need, infl := h.infl, done := h.done, mem := h.mem
      pcF := fun hh => by simp at hh
      pcR := fun i g hh => by simp at hh
      pcS := fun _ => ⟨i, hin.symm, hp⟩
      nxt := by
        intro k hk
        dsimp only at hk
        apply h.nxt k; left
        rcases hk with hk | ⟨_, hk⟩
        · exact hk
        · simp at hk }
  · rename_i e _ hp
    rw [hp] at hfault
    cases e <;> simp_all [St.stop, setFault_ne]

theorem sem_fetch (hloc : Local isa key) (limit : Option Nat) (hw : WF s) (h : Sem isa prog a0 s) (hf : s.front = .fetch)
    (ht : timelyAt isa prog key s .fetch) (hfault : (fetchStep isa prog a0.reg limit s).fault = none) :
    Sem isa prog a0 (fetchStep isa prog a0.reg limit s) := by
  unfold fetchStep at hfault ⊢
  split
  · rename_i e he; rw [he] at hfault; simp at hfault
  · rename_i he
    rw [he] at hfault; dsimp only at hfault
    split
    · rename_i e hp; rw [hp] at hfault; simp only [St.stop] at hfault; exact absurd hfault (setFault_ne _ _)
    · rename_i inst hp
      rw [hp] at hfault; dsimp only at hfault ⊢
      split
      · rename_i hg; rw [if_pos hg] at hfault; simp only [St.stop] at hfault; exact absurd hfault (setFault_ne _ _)
      · rename_i hg
        rw [if_neg hg] at hfault
        have hpc := h.pcF hf
        have hinst : prog (T isa prog a0 s.n).pc = .ok inst := by rw [← hpc]; exact hp
        have htv : tVals isa prog (T isa prog a0 s.n) = ((isa.srcs inst).map s.rename).map (sval isa prog a0) := by
          unfold tVals; rw [hinst]; dsimp only; rw [h.ren, List.map_map]
          apply List.map_congr_left; intro r _; exact reg_rho isa prog a0 _ r
        have hacc : isa.access inst (((isa.srcs inst).map s.rename).map (s.val a0.reg)) =
            isa.access inst (tVals isa prog (T isa prog a0 s.n)) := by
          apply hloc.access_key; rw [htv]
          apply take_known h
          intro src hsrc p hpp
          obtain ⟨r, _, hr⟩ := List.mem_map.1 (List.mem_of_mem_take hsrc)
          exact ⟨by rw [← hr] at hpp; exact hw.renLt r p hpp, ht inst hp src hsrc p hpp⟩
        split
        · rename_i e ha; rw [ha] at hfault; simp only [St.stop] at hfault; exact absurd hfault (setFault_ne _ _)
        · rename_i addrs ha
          rw [hacc] at ha
          have hta : tAddrs isa prog (T isa prog a0 s.n) = addrs := by
            unfold tAddrs; unfold tVals at ha; rw [hinst] at ha ⊢; dsimp only at ha ⊢; rw [ha]
          have htd : tDsts isa prog (T isa prog a0 s.n) = isa.dsts inst := by unfold tDsts; rw [hinst]
          have e : ∀ (x : Entry I A) j, j < s.n → setEnt s.ent s.n x j = s.ent j := fun x j hj => setEnt_ne _ _ (by omega)
          constructor
          · intro j hj; dsimp only at hj ⊢
            by_cases hjn : j = s.n
            · subst hjn; rw [setEnt_same]; exact hinst
            · rw [e _ j (by omega)]; exact h.inst j (by omega)
          · intro j hj; dsimp only at hj ⊢
            by_cases hjn : j = s.n
            · subst hjn; rw [setEnt_same, h.ren]
            · rw [e _ j (by omega)]; exact h.srcs j (by omega)
          · dsimp only; simp only [rho]; rw [htd, h.ren]
          · intro j hj; dsimp only at hj ⊢
            by_cases hjn : j = s.n
            · subst hjn; rw [setEnt_same]; exact ha
            · rw [e _ j (by omega)]; exact h.acc j (by omega)
          · intro j hj; dsimp only at hj ⊢
            by_cases hjn : j = s.n
            · subst hjn; rw [setEnt_same]; dsimp only; rw [h.infl]
            · rw [e _ j (by omega)]; exact h.need j (by omega)
          · dsimp only; simp only [lastAcc]; rw [hta, h.infl]
          · intro j hj he; dsimp only at hj ⊢
            unfold Ex at he; dsimp only at he
            by_cases hjn : j = s.n
            · subst hjn; rw [setEnt_same] at he; simp [Status.executed] at he
            · rw [e _ j (by omega)] at he ⊢; exact h.done j (by omega) he
          · intro a j hj h1 h2; dsimp only at hj h1 h2 ⊢
            have hsame : ∀ j, j ≤ s.n → (∀ i, i < j → a ∈ (s.ent i).addrs → Ex s i) →
                (∀ i, j ≤ i → i < s.n → a ∈ (s.ent i).addrs → ¬ Ex s i) → s.mem a = (T isa prog a0 j).mem a := h.mem a
            have hno : j = s.n + 1 → a ∉ addrs := by
              intro hjn haa; subst hjn
              have := h1 s.n (by omega) (by rw [setEnt_same]; exact haa)
              unfold Ex at this; dsimp only at this; rw [setEnt_same] at this; simp [Status.executed] at this
            by_cases hjn : j = s.n + 1
            · subst hjn
              have hm : (T isa prog a0 (s.n + 1)).mem a = (T isa prog a0 s.n).mem a := by
                simp only [T, tNext]; unfold tOut; unfold tVals at ha; rw [hinst] at ha ⊢; dsimp only at ha ⊢
                split
                · rename_i p hp'; obtain ⟨o, n⟩ := p; exact hloc.exec_frame _ _ _ _ _ _ _ ha hp' (hno rfl)
                · rfl
              rw [hm]
              apply hsame s.n (by omega)
              · intro i hi hai
                have := h1 i (by omega) (by rw [e _ i hi]; exact hai)
                unfold Ex at this ⊢; dsimp only at this; rw [e _ i hi] at this; exact this
              · intro i h3 h4; omega
            · apply hsame j (by omega)
              · intro i hi hai
                have := h1 i (by omega) (by rw [e _ i (by omega)]; exact hai)
                unfold Ex at this ⊢; dsimp only at this; rw [e _ i (by omega)] at this; exact this
              · intro i h3 h4 hai
                have := h2 i h3 (by omega) (by rw [e _ i h4]; exact hai)
                unfold Ex at this ⊢; dsimp only at this; rw [e _ i h4] at this; exact this
          · intro hh; simp at hh
          · intro j g hh; dsimp only at hh ⊢; injection hh with hh; subst hh; exact hpc
          · intro hh; simp at hh
          · intro j hj; dsimp only at hj ⊢
            have hj' : j < s.n := by
              rcases hj with hj | ⟨_, hj⟩
              · omega
              · simp at hj
            rw [e _ j hj']; exact h.nxt j (Or.inr ⟨hj', hf⟩)

theorem sem_start (a0 : Arch V A B) (e0 : Entry I A) : Sem isa prog a0 (start isa a0.mem a0.pc e0) := by
  constructor <;> simp [start, T, rho, lastAcc]

/-- faults are never cleared -/
theorem fault_mono (isa : Isa I V A B) (prog : Nat → Except Err I) (init : Nat → V) (limit : Option Nat) (l : Label)
    (hs : step isa prog init limit s l = some s') (hf : s'.fault = none) : s.fault = none := by
  have hsf : ∀ (f : Option Err) e, setFault f e = none → f = none := fun f e h => absurd h (setFault_ne f e)
  have hdc : ∀ (t : St I V A B) i bg, (decr t i bg).fault = t.fault := by
    intro t i bg; unfold decr; dsimp only; split <;> rfl
  cases l with
  | fetch =>
    simp only [step] at hs
    split at hs
    · injection hs with hs; subst hs
      unfold fetchStep at hf
      cases hfa : s.fault with
      | none => rfl
      | some x => rw [hfa] at hf; simp at hf
    · simp at hs
  | dep =>
    simp only [step] at hs
    split at hs
    · injection hs with hs; subst hs; rw [← hf]; unfold depStep; dsimp only; split <;> rfl
    · simp at hs
  | dispatched =>
    simp only [step] at hs
    split at hs
    · injection hs with hs; subst hs; rw [hdc] at hf; exact hf
    · simp at hs
  | resolve =>
    simp only [step] at hs
    split at hs
    · split at hs
      · injection hs with hs; subst hs
        unfold resolveStep at hf
        split at hf
        · exact hf
        · exact hf
        · exact hsf _ _ hf
      · simp at hs
    · simp at hs
  | exec i bg =>
    simp only [step] at hs
    split at hs
    · injection hs with hs; subst hs
      unfold execStep at hf; dsimp only at hf
      cases hfa : s.fault with
      | none => rfl
      | some x => rw [hfa] at hf; simp at hf
    · simp at hs
  | asyncDone i =>
    simp only [step] at hs
    split at hs
    · injection hs with hs; subst hs; exact hf
    · simp at hs
  | notify i =>
    simp only [step] at hs
    split at hs
    · injection hs with hs; subst hs
      unfold notifyStep at hf
      split at hf
      · exact hf
      · rw [hdc] at hf; exact hf
    · simp at hs
  | retire i =>
    simp only [step] at hs
    split at hs
    · injection hs with hs; subst hs; exact hf
    · simp at hs

theorem sem_step (hloc : Local isa key) (limit : Option Nat) (hw : WF s) (h : Sem isa prog a0 s) (l : Label)
    (ht : timelyAt isa prog key s l) (hs : step isa prog a0.reg limit s l = some s') (hf : s'.fault = none) :
    Sem isa prog a0 s' := by
  have hsf := fault_mono isa prog a0.reg limit l hs hf
  cases l with
  | fetch =>
    simp only [step] at hs
    split at hs
    · rename_i hc; injection hs with hs; subst hs; exact sem_fetch hloc limit hw h hc.2 ht hf
    · simp at hs
  | dep =>
    simp only [step] at hs
    split at hs
    · injection hs with hs; subst hs; exact sem_dep h _ _ _
    · simp at hs
  | dispatched =>
    simp only [step] at hs
    split at hs
    · rename_i i hm; injection hs with hs; subst hs
      apply sem_decr
      exact Sem.congr h rfl (fun _ => rfl) (fun _ => rfl) (fun _ => rfl) (fun _ => rfl) (fun _ _ => Iff.rfl) rfl rfl rfl rfl rfl rfl
    · simp at hs
  | resolve =>
    simp only [step] at hs
    split at hs
    · rename_i i g hfr
      split at hs
      · injection hs with hs; subst hs; exact sem_resolve hloc hw h hfr ht hf
      · simp at hs
    · simp at hs
  | exec i bg =>
    simp only [step] at hs
    split at hs
    · rename_i hc; injection hs with hs; subst hs
      obtain ⟨hi, hwt, h0⟩ := (hw.readyIff i).1 (List.mem_map.2 ⟨(i, bg), hc.2, rfl⟩)
      unfold execStep at hf ⊢
      dsimp only at hf ⊢
      rw [hsf] at hf ⊢
      dsimp only at hf ⊢
      split
      · rename_i x hx
        simp only [St.srcVals, St.val] at hx hf
        rw [hx] at hf; simp [setFault] at hf
      · rename_i outs mem' hx
        rw [show (none : Option Err) = s.fault from hsf.symm]
        split
        · exact sem_exec_ok hloc hw h hi hwt h0 outs mem' hx .running rfl _ _
        · exact sem_exec_ok hloc hw h hi hwt h0 outs mem' hx .retiring rfl _ _
    · simp at hs
  | asyncDone i =>
    simp only [step] at hs
    split at hs
    · rename_i hc; injection hs with hs; subst hs
      exact sem_status h i .retiring (by unfold Ex; rw [hc.2]; rfl) rfl s.main s.inflightCount
    · simp at hs
  | notify i =>
    simp only [step] at hs
    split at hs
    · injection hs with hs; subst hs; exact sem_notify h i
    · simp at hs
  | retire i =>
    simp only [step] at hs
    split at hs
    · rename_i hc; injection hs with hs; subst hs
      exact sem_status h i .retired (by unfold Ex; rw [hc.2.1]; rfl) rfl _ _
    · simp at hs

end
end Spf.Machine
