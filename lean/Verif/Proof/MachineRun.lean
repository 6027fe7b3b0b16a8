import Verif.Proof.MachineSem
/-! Complete runs of the out-of-order machine: results, lateness, gas. -/
namespace Spf.Machine
open Spf.Cpu (Err)
open Spf.Seq (Arch assign Local Slow slowInst slowStep Returns Steady NoBackground gasUsed)

variable {I V A B : Type} [DecidableEq A]

/-- Every step of the run is timely. -/
def Timely (isa : Isa I V A B) (prog : Nat → Except Err I) (key : I → Nat) (init : Nat → V) (limit : Option Nat) :
    St I V A B → List Label → Prop
  | _, [] => True
  | s, l :: ls => timelyAt isa prog key s l ∧ ∀ s', step isa prog init limit s l = some s' → Timely isa prog key init limit s' ls

section
variable {isa : Isa I V A B} {prog : Nat → Except Err I} {a0 : Arch V A B} {s s' : St I V A B} {key : I → Nat} {limit : Option Nat}

theorem sem_run (hloc : Local isa key) : ∀ (ls : List Label) {s s' : St I V A B}, WF s → Sem isa prog a0 s →
    Timely isa prog key a0.reg limit s ls → run isa prog a0.reg limit s ls = some s' → s'.fault = none → Sem isa prog a0 s' := by
  intro ls
  induction ls with
  | nil => intro s s' _ h _ hr _; simp only [run] at hr; injection hr with hr; subst hr; exact h
  | cons l ls ih =>
    intro s s' hw h ht hr hf
    simp only [run] at hr
    split at hr
    · simp at hr
    · rename_i s1 h1
      have hw1 := wf_step isa prog a0.reg limit hw l h1
      have hmono : ∀ (ls : List Label) {s s' : St I V A B}, run isa prog a0.reg limit s ls = some s' → s'.fault = none →
          s.fault = none := by
        intro ls
        induction ls with
        | nil => intro s s' hr hf; simp only [run] at hr; injection hr with hr; subst hr; exact hf
        | cons l ls ih =>
          intro s s' hr hf
          simp only [run] at hr
          split at hr
          · simp at hr
          · rename_i s2 h2; exact fault_mono isa prog a0.reg limit l h2 (ih hr hf)
      have hf1 := hmono ls hr hf
      exact ih hw1 (sem_step hloc limit hw h l ht.1 h1 hf1) (ht.2 s1 h1) hr hf

omit [DecidableEq A] in
/-- At the end everything has retired. -/
theorem done_retired (hw : WF s) (hd : s.inflightCount = 0) : ∀ i, i < s.n → (s.ent i).status = .retired := by
  intro i hi
  have h1 := hw.count; rw [hd] at h1
  have := le_sumTo (fun i => unret (s.ent i)) s.n i hi
  have h2 : unret (s.ent i) = 0 := by omega
  unfold unret at h2
  split at h2
  · assumption
  · simp at h2

/-- Program order goes through `T`. -/
theorem returns_T (n : Nat) : ∀ (a0 : Arch V A B), (∀ i, i < n → ∃ inst l p,
      prog (T isa prog a0 i).pc = .ok inst ∧ isa.access inst (tVals isa prog (T isa prog a0 i)) = .ok l ∧
      isa.exec inst (tVals isa prog (T isa prog a0 i)) (T isa prog a0 i).mem = .ok p ∧
      (if i + 1 = n then isa.next inst (T isa prog a0 i).pc (tVals isa prog (T isa prog a0 i)) = .error .halt
       else ∃ pc, isa.next inst (T isa prog a0 i).pc (tVals isa prog (T isa prog a0 i)) = .ok pc)) → 0 < n →
    Returns isa prog n a0 (T isa prog a0 n) := by
  induction n with
  | zero => intro a0 _ h; omega
  | succ n ih =>
    intro a0 h _
    have hT : ∀ k, T isa prog a0 (k + 1) = T isa prog (tNext isa prog a0) k := by
      intro k; induction k with
      | zero => rfl
      | succ k ihk => rw [T, ihk]; rfl
    obtain ⟨inst, l, p, h1, h2, h3, h4⟩ := h 0 (by omega)
    simp only [T] at h1 h2 h3 h4
    unfold tVals at h2 h3 h4; rw [h1] at h2 h3 h4; dsimp only at h2 h3 h4
    obtain ⟨o, m⟩ := p
    have hout : tOut isa prog a0 = (o, m) := by unfold tOut; rw [h1]; dsimp only; rw [h3]
    have hds : tDsts isa prog a0 = isa.dsts inst := by unfold tDsts; rw [h1]
    simp only [Returns]
    unfold Seq.step Seq.effect
    rw [h1]; dsimp only; rw [h2]; dsimp only; rw [h3]; dsimp only
    by_cases hn : n = 0
    · subst hn
      rw [if_pos rfl] at h4
      rw [h4]; dsimp only
      refine ⟨rfl, ?_⟩
      simp only [T, tNext]; rw [hout, hds]
      have : tPc isa prog a0 = a0.pc := by unfold tPc; rw [h1]; dsimp only; rw [h4]
      rw [this]
    · rw [if_neg (by omega)] at h4
      obtain ⟨pc, h4⟩ := h4
      rw [h4]; dsimp only
      have hnx : tNext isa prog a0 = { reg := assign a0.reg isa.dflt o 0 (isa.dsts inst), mem := m, pc := pc } := by
        unfold tNext; rw [hout, hds]
        have : tPc isa prog a0 = pc := by unfold tPc; rw [h1]; dsimp only; rw [h4]
        rw [this]
      rw [← hnx, hT]
      apply ih _ _ (by omega)
      intro i hi
      have := h (i + 1) (by omega)
      rw [hT] at this
      obtain ⟨x1, x2, x3, x4, x5, x6, x7⟩ := this
      refine ⟨x1, x2, x3, x4, x5, x6, ?_⟩
      by_cases hin : i + 1 = n
      · rw [if_pos hin]; rw [if_pos (by omega)] at x7; exact x7
      · rw [if_neg hin]; rw [if_neg (by omega)] at x7; exact x7

/-- A complete run that stayed in step with program order has the program-order result. -/
theorem done_result (hw : WF s) (h : Sem isa prog a0 s) (hd : s.done) :
    ∃ b, Returns isa prog s.n a0 b ∧ s.mem = b.mem ∧ ∀ r, s.val a0.reg (s.rename r) = b.reg r := by
  have hret := done_retired hw hd.2
  have hex : ∀ i, i < s.n → Ex s i := fun i hi => by unfold Ex; rw [hret i hi]; rfl
  obtain ⟨m, hm, hhalt⟩ := h.pcS hd.1
  refine ⟨T isa prog a0 s.n, ?_, ?_, ?_⟩
  · apply returns_T
    · intro i hi
      obtain ⟨p, hp⟩ := (h.done i hi (hex i hi)).1
      refine ⟨(s.ent i).inst, _, p, h.inst i hi, h.acc i hi, hp, ?_⟩
      by_cases hin : i + 1 = s.n
      · rw [if_pos hin]
        have : i = m := by omega
        subst this; exact hhalt
      · rw [if_neg hin]; exact h.nxt i (Or.inl (by omega))
    · omega
  · funext a
    exact h.mem a s.n (by omega) (fun i hi _ => hex i hi) (fun i h1 h2 => by omega)
  · intro r
    rw [reg_rho isa prog a0 s.n r, h.ren]
    apply val_known h
    intro i hi
    have := rho_lt isa prog a0 s.n r i hi
    exact ⟨this, hex i this⟩

/-! ### Lateness -/

/-- What is known about the program-order execution when it returns after `N` instructions, with the marks. -/
structure Ok (isa : Isa I V A B) (prog : Nat → Except Err I) (key : I → Nat) (a0 : Arch V A B) (N : Nat) (W : Nat → Slow A) : Prop where
  ok : ∀ i, i < N → ∃ inst l p,
      prog (T isa prog a0 i).pc = .ok inst ∧ isa.access inst (tVals isa prog (T isa prog a0 i)) = .ok l ∧
      isa.exec inst (tVals isa prog (T isa prog a0 i)) (T isa prog a0 i).mem = .ok p ∧
      (if i + 1 = N then isa.next inst (T isa prog a0 i).pc (tVals isa prog (T isa prog a0 i)) = .error .halt
       else ∃ pc, isa.next inst (T isa prog a0 i).pc (tVals isa prog (T isa prog a0 i)) = .ok pc) ∧
      (∀ r ∈ (isa.srcs inst).take (key inst), (W i).reg r = false) ∧
      W (i + 1) = slowStep isa inst (T isa prog a0 i) (W i)
  pos : 0 < N

theorem ok_of_steady : ∀ (N : Nat) (a0 b : Arch V A B) (w : Slow A), Returns isa prog N a0 b →
    Steady isa prog key N a0 w → ∃ W, W 0 = w ∧ Ok isa prog key a0 N W := by
  intro N
  induction N with
  | zero => intro a0 b w h; exact absurd h (by simp [Returns])
  | succ N ih =>
    intro a0 b w hr hst
    have hT : ∀ k, T isa prog a0 (k + 1) = T isa prog (tNext isa prog a0) k := by
      intro k; induction k with
      | zero => rfl
      | succ k ihk => rw [T, ihk]; rfl
    simp only [Returns] at hr
    simp only [Steady] at hst
    cases hp : prog a0.pc with
    | error e => unfold Seq.step at hr; rw [hp] at hr; exact absurd hr (by simp)
    | ok inst =>
      rw [hp] at hst
      have hstep : Seq.step isa prog a0 = (match Seq.effect isa inst a0 with
        | .error e => .error e
        | .ok b => match isa.next inst a0.pc ((isa.srcs inst).map a0.reg) with
          | .ok pc' => .ok ({ b with pc := pc' }, false)
          | .error .halt => .ok (b, true)
          | .error e => .error e) := by unfold Seq.step; rw [hp]; rfl
      rw [hstep] at hr hst; clear hstep
      cases hef : Seq.effect isa inst a0 with
      | error e => rw [hef] at hr; exact absurd hr (by simp)
      | ok c =>
        rw [hef] at hr hst; dsimp only at hr hst
        unfold Seq.effect at hef; dsimp only at hef
        cases hac : isa.access inst ((isa.srcs inst).map a0.reg) with
        | error e => rw [hac] at hef; simp at hef
        | ok l =>
          rw [hac] at hef; dsimp only at hef
          cases hx : isa.exec inst ((isa.srcs inst).map a0.reg) a0.mem with
          | error e => rw [hx] at hef; simp at hef
          | ok om =>
            obtain ⟨o, m⟩ := om
            rw [hx] at hef; dsimp only at hef; injection hef with hef
            have htv : tVals isa prog a0 = (isa.srcs inst).map a0.reg := by unfold tVals; rw [hp]
            cases hnx : isa.next inst a0.pc ((isa.srcs inst).map a0.reg) with
            | error e =>
              rw [hnx] at hr hst
              cases e with
              | halt =>
                dsimp only at hr hst
                obtain ⟨hN, hb⟩ := hr
                subst hN
                refine ⟨fun k => if k = 0 then w else slowStep isa inst a0 w, by simp, ?_, by omega⟩
                intro i hi
                have hi0 : i = 0 := by omega
                subst hi0
                simp only [T]
                rw [htv]
                refine ⟨inst, l, (o, m), hp, hac, hx, ?_, ?_, ?_⟩
                · simp [hnx]
                · simpa using hst.1
                · simp
              | _ => simp at hr
            | ok pc =>
              rw [hnx] at hr hst; dsimp only at hr hst
              have hnext : tNext isa prog a0 = { c with pc := pc } := by
                unfold tNext
                have h1 : tOut isa prog a0 = (o, m) := by unfold tOut; rw [hp]; dsimp only; rw [hx]
                have h2 : tDsts isa prog a0 = isa.dsts inst := by unfold tDsts; rw [hp]
                have h3 : tPc isa prog a0 = pc := by unfold tPc; rw [hp]; dsimp only; rw [hnx]
                rw [h1, h2, h3, ← hef]
              obtain ⟨W, hW0, hW⟩ := ih _ b _ hr hst.2
              rw [← hnext] at hW
              refine ⟨fun k => match k with | 0 => w | k + 1 => W k, rfl, ?_, by omega⟩
              intro i hi
              cases i with
              | zero =>
                simp only [T]; rw [htv]
                refine ⟨inst, l, (o, m), hp, hac, hx, ?_, hst.1, hW0⟩
                rw [if_neg (by have := hW.pos; omega)]
                exact ⟨pc, hnx⟩
              | succ i =>
                obtain ⟨inst', l', p', g1, g2, g3, g4, g5, g6⟩ := hW.ok i (by omega)
                rw [hT]
                refine ⟨inst', l', p', g1, g2, g3, ?_, g5, g6⟩
                by_cases hin : i + 1 = N
                · rw [if_pos (by omega)]; rw [if_pos hin] at g4; exact g4
                · rw [if_neg (by omega)]; rw [if_neg hin] at g4; exact g4

/-- whether instruction `i` is slow -/
def late (isa : Isa I V A B) (prog : Nat → Except Err I) (a0 : Arch V A B) (W : Nat → Slow A) (i : Nat) : Bool :=
  match prog (T isa prog a0 i).pc with
  | .ok inst => slowInst isa inst (T isa prog a0 i) (W i)
  | .error _ => false

def lateOf (f : Nat → Bool) : Option Nat → Bool
  | none => false
  | some i => f i

theorem lateOf_renameAll (f : Nat → Bool) (i : Nat) : ∀ (ds : List Nat) (k : Nat) (ρ : Nat → Src) (r : Nat),
    lateOf f (renameAll ρ i k ds r).producer = if r ∈ ds then f i else lateOf f (ρ r).producer := by
  intro ds
  induction ds with
  | nil => intro k ρ r; simp [renameAll]
  | cons d ds ih =>
    intro k ρ r
    simp only [renameAll]
    rw [ih]
    by_cases h1 : r ∈ ds
    · rw [if_pos h1, if_pos (List.mem_cons_of_mem _ h1)]
    · rw [if_neg h1]
      by_cases h2 : r = d
      · rw [if_pos h2, if_pos (by rw [h2]; simp)]; rfl
      · rw [if_neg h2, if_neg (by simp [h1, h2])]

theorem marks (N : Nat) (W : Nat → Slow A) (hok : Ok isa prog key a0 N W) (hW0 : W 0 = ⟨fun _ => false, fun _ => false⟩) :
    ∀ k, k ≤ N → (∀ r, (W k).reg r = lateOf (late isa prog a0 W) (rho isa prog a0 k r).producer) ∧
      (∀ x, (W k).mem x = lateOf (late isa prog a0 W) (lastAcc isa prog a0 k x)) := by
  intro k
  induction k with
  | zero => intro _; rw [hW0]; exact ⟨fun _ => rfl, fun _ => rfl⟩
  | succ k ih =>
    intro hk
    obtain ⟨ihr, ihm⟩ := ih (by omega)
    obtain ⟨inst, l, p, h1, h2, h3, h4, h5, h6⟩ := hok.ok k (by omega)
    have hlate : late isa prog a0 W k = slowInst isa inst (T isa prog a0 k) (W k) := by unfold late; rw [h1]
    have htv : tVals isa prog (T isa prog a0 k) = (isa.srcs inst).map (T isa prog a0 k).reg := by unfold tVals; rw [h1]
    rw [htv] at h2
    have hds : tDsts isa prog (T isa prog a0 k) = isa.dsts inst := by unfold tDsts; rw [h1]
    have hta : tAddrs isa prog (T isa prog a0 k) = l := by unfold tAddrs; rw [h1]; dsimp only; rw [h2]
    rw [h6]
    constructor
    · intro r
      simp only [slowStep, rho]
      rw [hds, lateOf_renameAll, hlate, ihr]
    · intro x
      simp only [slowStep, lastAcc, markInflight]
      rw [h2, hta]; dsimp only
      by_cases hx : x ∈ l
      · rw [if_pos hx, if_pos hx]; exact hlate.symm
      · rw [if_neg hx, if_neg hx]; exact ihm x

structure LateInv (isa : Isa I V A B) (prog : Nat → Except Err I) (a0 : Arch V A B) (W : Nat → Slow A) (N : Nat) (s : St I V A B) : Prop where
  running : ∀ i, i < s.n → (s.ent i).status = .running → late isa prog a0 W i = true
  retiring : ∀ i, i < s.n → (s.ent i).status = .retiring → s.main = .retiring i ∨ late isa prog a0 W i = true
  bg : ∀ i, (i, true) ∈ s.ready → late isa prog a0 W i = true
  fetched : s.front = .fetch → ∀ i, i < s.n → late isa prog a0 W i = false → (s.ent i).status = .retired
  noFault : s.fault = none
  nle : s.n ≤ N
  nlt : s.front = .fetch → s.n < N

/-- waiting for a slow instruction is slow -/
theorem late_need (N : Nat) (W : Nat → Slow A) (hok : Ok isa prog key a0 N W) (hW0 : W 0 = ⟨fun _ => false, fun _ => false⟩)
    (h : Sem isa prog a0 s) (hn : s.n ≤ N) {i d : Nat} (hi : i < s.n) (hd : d ∈ (s.ent i).need)
    (hl : late isa prog a0 W d = true) : late isa prog a0 W i = true := by
  obtain ⟨hr, hm⟩ := marks N W hok hW0 i (by omega)
  unfold late; rw [h.inst i hi]; dsimp only
  unfold slowInst; dsimp only
  rw [h.need i hi] at hd
  have hacc := h.acc i hi
  unfold tVals at hacc; rw [h.inst i hi] at hacc; dsimp only at hacc
  rw [hacc]; dsimp only
  rcases List.mem_append.1 hd with hd | hd
  · obtain ⟨src, hsrc, hp⟩ := List.mem_filterMap.1 hd
    rw [h.srcs i hi] at hsrc
    obtain ⟨r, hr1, hr2⟩ := List.mem_map.1 hsrc
    have : (isa.srcs (s.ent i).inst).any (W i).reg = true := by
      apply List.any_eq_true.2; exact ⟨r, hr1, by rw [hr r, hr2, hp]; exact hl⟩
    rw [this]; simp
  · obtain ⟨a, ha, hp⟩ := List.mem_filterMap.1 hd
    have : ((s.ent i).addrs).any (W i).mem = true := by
      apply List.any_eq_true.2; exact ⟨a, ha, by rw [hm a, hp]; exact hl⟩
    rw [this]; simp

theorem late_async (W : Nat → Slow A) (h : Sem isa prog a0 s) {i : Nat} (hi : i < s.n)
    (ha : isa.async (s.ent i).inst (tVals isa prog (T isa prog a0 i)) = true) : late isa prog a0 W i = true := by
  unfold late; unfold tVals at ha; rw [h.inst i hi] at ha ⊢; dsimp only at ha ⊢
  unfold slowInst; dsimp only; rw [ha]; simp

/-- When the main thread has nothing left to do, all that is not slow has retired. -/
theorem prompt_retired (N : Nat) (W : Nat → Slow A) (hok : Ok isa prog key a0 N W) (hW0 : W 0 = ⟨fun _ => false, fun _ => false⟩)
    (hw : WF s) (h : Sem isa prog a0 s) (hl : LateInv isa prog a0 W N s) (hidle : s.main = .idle) (hdr : drained s = true) :
    ∀ i, i < s.n → late isa prog a0 W i = false → (s.ent i).status = .retired := by
  intro i
  induction i using Nat.strongRecOn with
  | ind i ih =>
    intro hi hli
    cases hst : (s.ent i).status with
    | retired => rfl
    | running => have := hl.running i hi hst; rw [hli] at this; simp at this
    | retiring =>
      rcases hl.retiring i hi hst with h1 | h1
      · rw [hidle] at h1; simp at h1
      · rw [hli] at h1; simp at h1
    | waiting =>
      exfalso
      by_cases h0 : (s.ent i).deps = 0
      · obtain ⟨⟨j, b⟩, hjb, hj⟩ := List.mem_map.1 ((hw.readyIff i).2 ⟨hi, hst, h0⟩)
        dsimp only at hj; subst hj
        have hb : b = true := by
          have := List.all_eq_true.1 hdr _ hjb; exact this
        subst hb
        have := hl.bg j hjb; rw [hli] at this; simp at this
      · have hd := hw.deps i hi
        rw [lostTok_none] at hd
        rcases tokens_pos (s := s) (i := i) (by omega) with ⟨d, hdn, hdi⟩ | ⟨p, hp⟩ | hp
        · obtain ⟨_, _, hnd, hnr⟩ := hw.dep d hdn i hdi
          have hlt := hw.needLt i hi d hnd
          cases hld : late isa prog a0 W d with
          | true => have := late_need N W hok hW0 h hl.nle hi hnd hld; rw [hli] at this; simp at this
          | false => exact hnr (ih d hlt hdn hld)
        · rw [hidle] at hp; simp at hp
        · exact (hw.lostW i hp).2.2.2 hl.noFault

/-! ### Preservation -/

theorem decr_status (t : St I V A B) (i : Nat) (bg : Bool) (j : Nat) : ((decr t i bg).ent j).status = (t.ent j).status := by
  unfold decr; dsimp only; split <;> (by_cases hj : j = i <;> simp [setEnt, hj])

theorem pop_status (f : Nat → Entry I A) (i : Nat) (ds : List Nat) (j : Nat) :
    (setEnt f i { f i with dependents := ds } j).status = (f j).status := by
  by_cases hj : j = i <;> simp [setEnt, hj]

theorem fetch_access (hloc : Local isa key) (hw : WF s) (h : Sem isa prog a0 s) (hf : s.front = .fetch)
    (ht : timelyAt isa prog key s .fetch) {inst : I} (hp : prog s.pc = .ok inst) :
    isa.access inst (((isa.srcs inst).map s.rename).map (s.val a0.reg)) = isa.access inst (tVals isa prog (T isa prog a0 s.n)) := by
  have hinst : prog (T isa prog a0 s.n).pc = .ok inst := by rw [← h.pcF hf]; exact hp
  have htv : tVals isa prog (T isa prog a0 s.n) = ((isa.srcs inst).map s.rename).map (sval isa prog a0) := by
    unfold tVals; rw [hinst]; dsimp only; rw [h.ren, List.map_map]
    apply List.map_congr_left; intro r _; exact reg_rho isa prog a0 _ r
  apply hloc.access_key; rw [htv]
  apply take_known h
  intro src hsrc p hpp
  obtain ⟨r, _, hr⟩ := List.mem_map.1 (List.mem_of_mem_take hsrc)
  exact ⟨by rw [← hr] at hpp; exact hw.renLt r p hpp, ht inst hp src hsrc p hpp⟩

theorem resolve_next (hloc : Local isa key) (hw : WF s) (h : Sem isa prog a0 s) {i g : Nat} (hf : s.front = .resolve i g)
    (ht : timelyAt isa prog key s .resolve) :
    isa.next (s.ent i).inst s.pc (s.srcVals a0.reg i) =
      isa.next (s.ent i).inst (T isa prog a0 i).pc (tVals isa prog (T isa prog a0 i)) := by
  have hin := hw.frontR i g hf
  have hi : i < s.n := by omega
  rw [h.pcR i g hf]
  apply hloc.next_key
  rw [tVals_eq h hi]
  apply take_known h
  intro src hsrc p hp
  have hp' : p ∈ (s.ent i).need := by
    rw [h.need i hi]; exact List.mem_append_left _ (List.mem_filterMap.2 ⟨src, List.mem_of_mem_take hsrc, hp⟩)
  exact ⟨by have := hw.needLt i hi p hp'; omega, ht i g hf src hsrc p hp⟩

/-- Sources that are not slow are known once everything prompt has retired. -/
theorem known_of_prompt (N : Nat) (W : Nat → Slow A) (hok : Ok isa prog key a0 N W) (hW0 : W 0 = ⟨fun _ => false, fun _ => false⟩)
    (hret : ∀ i, i < s.n → late isa prog a0 W i = false → (s.ent i).status = .retired) {k : Nat} (hkN : k < N) (hkn : k ≤ s.n)
    {inst : I} (hp : prog (T isa prog a0 k).pc = .ok inst) :
    ∀ src ∈ ((isa.srcs inst).map (rho isa prog a0 k)).take (key inst), known s src := by
  intro src hsrc i hi
  rw [← List.map_take] at hsrc
  obtain ⟨r, hr1, hr2⟩ := List.mem_map.1 hsrc
  obtain ⟨inst', l, p, h1, h2, h3, h4, h5, h6⟩ := hok.ok k hkN
  have : inst' = inst := by rw [hp] at h1; injection h1 with h1; exact h1.symm
  subst this
  have h7 := h5 r hr1
  rw [(marks N W hok hW0 k (by omega)).1 r, hr2, hi] at h7
  have hik := rho_lt isa prog a0 k r i (by rw [hr2]; exact hi)
  unfold Ex; rw [hret i (by omega) h7]; rfl

theorem late_timely (N : Nat) (W : Nat → Slow A) (hok : Ok isa prog key a0 N W) (hW0 : W 0 = ⟨fun _ => false, fun _ => false⟩)
    (hw : WF s) (h : Sem isa prog a0 s) (hl : LateInv isa prog a0 W N s) (l : Label)
    (hs : step isa prog a0.reg limit s l = some s') : timelyAt isa prog key s l := by
  cases l with
  | fetch =>
    simp only [step] at hs
    split at hs
    · rename_i hc
      intro inst hp
      have hpc := h.pcF hc.2
      rw [h.ren]
      exact known_of_prompt N W hok hW0 (hl.fetched hc.2) (hl.nlt hc.2) (by omega) (by rw [← hpc]; exact hp)
    · simp at hs
  | resolve =>
    simp only [step] at hs
    split at hs
    · rename_i i g hf
      split at hs
      · rename_i hc
        intro i' g' hf'
        rw [hf] at hf'; injection hf' with h1 h2; subst h1; subst h2
        have hin := hw.frontR i g hf
        rw [h.srcs i (by omega)]
        have := hl.nle
        exact known_of_prompt N W hok hW0 (prompt_retired N W hok hW0 hw h hl hc.1 hc.2) (by omega) (by omega) (h.inst i (by omega))
      · simp at hs
    · simp at hs
  | _ => trivial

theorem late_step (hloc : Local isa key) (hlim : ∀ inst vs, limit.any (isa.gas inst vs > ·) = false) (N : Nat)
    (W : Nat → Slow A) (hok : Ok isa prog key a0 N W) (hW0 : W 0 = ⟨fun _ => false, fun _ => false⟩)
    (hw : WF s) (h : Sem isa prog a0 s) (hl : LateInv isa prog a0 W N s) (l : Label)
    (hs : step isa prog a0.reg limit s l = some s') : LateInv isa prog a0 W N s' := by
  have ht := late_timely N W hok hW0 hw h hl l hs
  have hnf := hl.noFault
  cases l with
  | fetch =>
    simp only [step] at hs
    split at hs
    · rename_i hc; injection hs with hs; subst hs
      have hnN := hl.nlt hc.2
      obtain ⟨inst, l, p, h1, h2, h3, h4, h5, h6⟩ := hok.ok s.n hnN
      have hp : prog s.pc = .ok inst := by rw [h.pcF hc.2]; exact h1
      have ha := fetch_access hloc hw h hc.2 ht hp
      rw [h2] at ha
      have e : ∀ (x : Entry I A) j, j < s.n → setEnt s.ent s.n x j = s.ent j := fun x j hj => setEnt_ne _ _ (by omega)
      unfold fetchStep
      rw [hnf]; dsimp only
      rw [hp]; dsimp only
      rw [hlim]; simp only [Bool.false_eq_true, if_false]
      rw [ha]; dsimp only
      constructor
      · intro j hj hst; dsimp only at hj hst
        by_cases hjn : j = s.n
        · subst hjn; rw [setEnt_same] at hst; simp at hst
        · rw [e _ j (by omega)] at hst; exact hl.running j (by omega) hst
      · intro j hj hst; dsimp only at hj hst
        by_cases hjn : j = s.n
        · subst hjn; rw [setEnt_same] at hst; simp at hst
        · rw [e _ j (by omega)] at hst
          rcases hl.retiring j (by omega) hst with h7 | h7
          · rw [hc.1] at h7; simp at h7
          · exact Or.inr h7
      · exact hl.bg
      · intro hh; simp at hh
      · rfl
      · dsimp only; omega
      · intro hh; simp at hh
    · simp at hs
  | dep =>
    simp only [step] at hs
    split at hs
    · rename_i i d ds hm; injection hs with hs; subst hs
      have hE : ∀ {X : Type} (p : Entry I A → X) (_ : ∀ e x, p { e with deps := x } = p e)
          (_ : ∀ e x, p { e with dependents := x } = p e) (j : Nat), p ((depStep s i d ds).ent j) = p (s.ent j) := by
        intro X p hp hq j; unfold depStep; dsimp only; split
        · dsimp only; rw [setEnt_field p _ _ _ (hp _ _) j, setEnt_field p _ _ _ (hq _ _) j]
        · rfl
      have hS := hE (·.status) (fun _ _ => rfl) (fun _ _ => rfl)
      have hn : (depStep s i d ds).n = s.n := by unfold depStep; dsimp only; split <;> rfl
      have hr : (depStep s i d ds).ready = s.ready := by unfold depStep; dsimp only; split <;> rfl
      have hf : (depStep s i d ds).front = s.front := by unfold depStep; dsimp only; split <;> rfl
      have hfa : (depStep s i d ds).fault = s.fault := by unfold depStep; dsimp only; split <;> rfl
      constructor
      · intro j hj hst; rw [hn] at hj; rw [hS] at hst; exact hl.running j hj hst
      · intro j hj hst; rw [hn] at hj; rw [hS] at hst
        rcases hl.retiring j hj hst with h7 | h7
        · rw [hm] at h7; simp at h7
        · exact Or.inr h7
      · intro j hj; rw [hr] at hj; exact hl.bg j hj
      · intro hh j hj hlj; rw [hf] at hh; rw [hn] at hj; rw [hS]; exact hl.fetched hh j hj hlj
      · rw [hfa]; exact hnf
      · rw [hn]; exact hl.nle
      · intro hh; rw [hf] at hh; rw [hn]; exact hl.nlt hh
    · simp at hs
  | dispatched =>
    simp only [step] at hs
    split at hs
    · rename_i i hm; injection hs with hs; subst hs
      have hS : ∀ j, ((decr { s with main := .idle } i false).ent j).status = (s.ent j).status := by
        intro j; exact decr_status _ _ _ _
      have hn : (decr { s with main := .idle } i false).n = s.n := by unfold decr; dsimp only; split <;> rfl
      have hf : (decr { s with main := .idle } i false).front = s.front := by unfold decr; dsimp only; split <;> rfl
      have hfa : (decr { s with main := .idle } i false).fault = s.fault := by unfold decr; dsimp only; split <;> rfl
      constructor
      · intro j hj hst; rw [hn] at hj; rw [hS] at hst; exact hl.running j hj hst
      · intro j hj hst; rw [hn] at hj; rw [hS] at hst
        rcases hl.retiring j hj hst with h7 | h7
        · rw [hm] at h7; simp at h7
        · exact Or.inr h7
      · intro j hj
        apply hl.bg j
        unfold decr at hj; dsimp only at hj; split at hj
        · dsimp only at hj
          rcases List.mem_append.1 hj with hj | hj
          · exact hj
          · simp at hj
        · exact hj
      · intro hh j hj hlj; rw [hf] at hh; rw [hn] at hj; rw [hS]; exact hl.fetched hh j hj hlj
      · rw [hfa]; exact hnf
      · rw [hn]; exact hl.nle
      · intro hh; rw [hf] at hh; rw [hn]; exact hl.nlt hh
    · simp at hs
  | resolve =>
    simp only [step] at hs
    split at hs
    · rename_i i g hf
      split at hs
      · rename_i hc; injection hs with hs; subst hs
        have hin := hw.frontR i g hf
        have hpr := prompt_retired N W hok hW0 hw h hl hc.1 hc.2
        have hnx := resolve_next hloc hw h hf ht
        have hnle := hl.nle
        obtain ⟨inst, l, p, h1, h2, h3, h4, h5, h6⟩ := hok.ok i (by omega)
        have hi : inst = (s.ent i).inst := by
          have := h.inst i (by omega); rw [h1] at this; injection this
        subst hi
        unfold resolveStep
        rw [hnx]
        by_cases hN : i + 1 = N
        · rw [if_pos hN] at h4
          rw [h4]; dsimp only
          exact { running := hl.running, retiring := hl.retiring, bg := hl.bg, fetched := fun hh => by simp at hh,
                  noFault := hnf, nle := hnle, nlt := fun hh => by simp at hh }
        · rw [if_neg hN] at h4
          obtain ⟨pc, h4⟩ := h4
          rw [h4]; dsimp only
          exact { running := hl.running, retiring := hl.retiring, bg := hl.bg, fetched := fun _ => hpr,
                  noFault := hnf, nle := hnle, nlt := fun _ => by dsimp only; omega }
      · simp at hs
    · simp at hs
  | exec i bg =>
    simp only [step] at hs
    split at hs
    · rename_i hc; injection hs with hs; subst hs
      obtain ⟨hi, hwt, h0⟩ := (hw.readyIff i).1 (List.mem_map.2 ⟨(i, bg), hc.2, rfl⟩)
      obtain ⟨hv, hm⟩ := exec_agrees hloc hw h hi hwt h0
      have hnle := hl.nle
      obtain ⟨inst, l, p, h1, h2, h3, h4, h5, h6⟩ := hok.ok i (by omega)
      have hii : inst = (s.ent i).inst := by
        have := h.inst i (by omega); rw [h1] at this; injection this
      subst hii
      obtain ⟨o, m⟩ := p
      obtain ⟨m', hx, _⟩ := hloc.exec_ok _ _ _ _ _ _ _ (h.acc i hi) (fun a ha => (hm a ha).symm) h3
      have hstat : ∀ (st : Status) j, (setEnt s.ent i { s.ent i with status := st } j).status = if j = i then st else (s.ent j).status := by
        intro st j; by_cases hj : j = i <;> simp [setEnt, hj]
      have hfet : ∀ (st : Status), s.front = .fetch → ∀ j, j < s.n → late isa prog a0 W j = false →
          (setEnt s.ent i { s.ent i with status := st } j).status = .retired := by
        intro st hh j hj hlj
        have := hl.fetched hh j hj hlj
        rw [hstat, if_neg]
        · exact this
        · intro hji; subst hji; rw [hwt] at this; simp at this
      unfold execStep
      dsimp only
      rw [hnf]; dsimp only
      have hv' : ({ s with ready := s.ready.erase (i, bg) } : St I V A B).srcVals a0.reg i = s.srcVals a0.reg i := rfl
      have hxx : isa.exec (s.ent i).inst (s.srcVals a0.reg i) s.mem = .ok (o, m') := by rw [hv]; exact hx
      rw [show ({ n := s.n, ent := s.ent, vals := s.vals, rename := s.rename, mem := s.mem, inflight := s.inflight, fault := none, pc := s.pc, ready := s.ready.erase (i, bg), main := s.main, front := s.front, inflightCount := s.inflightCount, gas := s.gas, lost := s.lost } : St I V A B).srcVals a0.reg i = s.srcVals a0.reg i from rfl]
      rw [hxx]; dsimp only
      split
      · rename_i has
        rw [hv] at has
        have hli := late_async W h hi has
        constructor
        · intro j hj hst; dsimp only at hj hst; rw [hstat] at hst
          by_cases hji : j = i
          · subst hji; exact hli
          · rw [if_neg hji] at hst; exact hl.running j hj hst
        · intro j hj hst; dsimp only at hj hst ⊢; rw [hstat] at hst
          by_cases hji : j = i
          · subst hji; exact Or.inr hli
          · rw [if_neg hji] at hst; exact hl.retiring j hj hst
        · intro j hj; exact hl.bg j (List.mem_of_mem_erase hj)
        · exact fun hh => hfet _ hh
        · rfl
        · exact hnle
        · exact hl.nlt
      · constructor
        · intro j hj hst; dsimp only at hj hst; rw [hstat] at hst
          by_cases hji : j = i
          · subst hji; simp at hst
          · rw [if_neg hji] at hst; exact hl.running j hj hst
        · intro j hj hst; dsimp only at hj hst ⊢; rw [hstat] at hst
          by_cases hji : j = i
          · subst hji; exact Or.inl rfl
          · rw [if_neg hji] at hst
            rcases hl.retiring j hj hst with h7 | h7
            · rw [hc.1] at h7; simp at h7
            · exact Or.inr h7
        · intro j hj; exact hl.bg j (List.mem_of_mem_erase hj)
        · exact fun hh => hfet _ hh
        · rfl
        · exact hnle
        · exact hl.nlt
    · simp at hs
  | asyncDone i =>
    simp only [step] at hs
    split at hs
    · rename_i hc; injection hs with hs; subst hs
      have hstat : ∀ (st : Status) j, (setEnt s.ent i { s.ent i with status := st } j).status = if j = i then st else (s.ent j).status := by
        intro st j; by_cases hj : j = i <;> simp [setEnt, hj]
      constructor
      · intro j hj hst; dsimp only at hj hst; rw [hstat] at hst
        by_cases hji : j = i
        · subst hji; simp at hst
        · rw [if_neg hji] at hst; exact hl.running j hj hst
      · intro j hj hst; dsimp only at hj hst ⊢; rw [hstat] at hst
        by_cases hji : j = i
        · subst hji; exact Or.inr (hl.running j hj hc.2)
        · rw [if_neg hji] at hst; exact hl.retiring j hj hst
      · exact hl.bg
      · intro hh j hj hlj; dsimp only at hh hj ⊢
        have := hl.fetched hh j hj hlj
        rw [hstat, if_neg]
        · exact this
        · intro hji; subst hji; rw [hc.2] at this; simp at this
      · exact hnf
      · exact hl.nle
      · exact hl.nlt
    · simp at hs
  | notify i =>
    simp only [step] at hs
    split at hs
    · rename_i hc; injection hs with hs; subst hs
      unfold notifyStep
      split
      · exact hl
      · rename_i d ds hds
        obtain ⟨hdn, hdw, hdneed, _⟩ := hw.dep i hc.1 d (by rw [hds]; simp)
        generalize hbg : decide (s.main ≠ .retiring i) = b
        have hS : ∀ j, ((decr { s with ent := setEnt s.ent i { s.ent i with dependents := ds } } d b).ent j).status = (s.ent j).status := by
          intro j; rw [decr_status]; exact pop_status _ _ _ _
        have hn : (decr { s with ent := setEnt s.ent i { s.ent i with dependents := ds } } d b).n = s.n := by
          unfold decr; dsimp only; split <;> rfl
        have hf : (decr { s with ent := setEnt s.ent i { s.ent i with dependents := ds } } d b).front = s.front := by
          unfold decr; dsimp only; split <;> rfl
        have hma : (decr { s with ent := setEnt s.ent i { s.ent i with dependents := ds } } d b).main = s.main := by
          unfold decr; dsimp only; split <;> rfl
        have hfa : (decr { s with ent := setEnt s.ent i { s.ent i with dependents := ds } } d b).fault = s.fault := by
          unfold decr; dsimp only; split <;> rfl
        constructor
        · intro j hj hst; rw [hn] at hj; rw [hS] at hst; exact hl.running j hj hst
        · intro j hj hst; rw [hn] at hj; rw [hS] at hst; rw [hma]; exact hl.retiring j hj hst
        · intro j hj
          unfold decr at hj; dsimp only at hj; split at hj
          · dsimp only at hj
            rcases List.mem_append.1 hj with hj | hj
            · exact hl.bg j hj
            · simp at hj
              obtain ⟨hj1, hj2⟩ := hj
              subst hj1; subst hj2
              have hne : s.main ≠ .retiring i := by simpa using hbg
              rcases hl.retiring i hc.1 hc.2.1 with h7 | h7
              · exact absurd h7 hne
              · exact late_need N W hok hW0 h hl.nle hdn hdneed h7
          · exact hl.bg j hj
        · intro hh j hj hlj; rw [hf] at hh; rw [hn] at hj; rw [hS]; exact hl.fetched hh j hj hlj
        · rw [hfa]; exact hnf
        · rw [hn]; exact hl.nle
        · intro hh; rw [hf] at hh; rw [hn]; exact hl.nlt hh
    · simp at hs
  | retire i =>
    simp only [step] at hs
    split at hs
    · rename_i hc; injection hs with hs; subst hs
      unfold retireStep
      have hstat : ∀ (st : Status) j, (setEnt s.ent i { s.ent i with status := st } j).status = if j = i then st else (s.ent j).status := by
        intro st j; by_cases hj : j = i <;> simp [setEnt, hj]
      constructor
      · intro j hj hst; dsimp only at hj hst; rw [hstat] at hst
        by_cases hji : j = i
        · subst hji; simp at hst
        · rw [if_neg hji] at hst; exact hl.running j hj hst
      · intro j hj hst; dsimp only at hj hst ⊢; rw [hstat] at hst
        by_cases hji : j = i
        · subst hji; simp at hst
        · rw [if_neg hji] at hst
          rcases hl.retiring j hj hst with h7 | h7
          · left; rw [if_neg]
            · exact h7
            · rw [h7]; simp; exact hji
          · exact Or.inr h7
      · exact hl.bg
      · intro hh j hj hlj; dsimp only at hh hj ⊢
        rw [hstat]; split
        · rfl
        · exact hl.fetched hh j hj hlj
      · exact hnf
      · exact hl.nle
      · exact hl.nlt
    · simp at hs

/-- Every run of a steady program stays in step with program order. -/
theorem steady_run (hloc : Local isa key) (hlim : ∀ inst vs, limit.any (isa.gas inst vs > ·) = false) (N : Nat)
    (W : Nat → Slow A) (hok : Ok isa prog key a0 N W) (hW0 : W 0 = ⟨fun _ => false, fun _ => false⟩) :
    ∀ (ls : List Label) {s s' : St I V A B}, WF s → Sem isa prog a0 s → LateInv isa prog a0 W N s →
      run isa prog a0.reg limit s ls = some s' →
      Sem isa prog a0 s' ∧ LateInv isa prog a0 W N s' ∧ Timely isa prog key a0.reg limit s ls := by
  intro ls
  induction ls with
  | nil => intro s s' hw h hl hr; simp only [run] at hr; injection hr with hr; subst hr; exact ⟨h, hl, trivial⟩
  | cons l ls ih =>
    intro s s' hw h hl hr
    simp only [run] at hr
    split at hr
    · simp at hr
    · rename_i s1 h1
      have ht := late_timely N W hok hW0 hw h hl l h1
      have hl1 := late_step hloc hlim N W hok hW0 hw h hl l h1
      have hw1 := wf_step isa prog a0.reg limit hw l h1
      obtain ⟨x, y, z⟩ := ih hw1 (sem_step hloc limit hw h l ht h1 hl1.noFault) hl1 hr
      refine ⟨x, y, ht, ?_⟩
      intro s2 h2
      rw [h1] at h2; injection h2 with h2; subst h2; exact z

theorem late_start (N : Nat) (W : Nat → Slow A) (hN : 0 < N) (e0 : Entry I A) :
    LateInv isa prog a0 W N (start isa a0.mem a0.pc e0) := by
  constructor <;> simp [start]
  exact hN

/-- A program that hands nothing to the background is steady. -/
theorem steady_of_noBackground : ∀ (N : Nat) (a0 : Arch V A B) (w : Slow A), (∀ r, w.reg r = false) → (∀ x, w.mem x = false) →
    NoBackground isa prog N a0 → Steady isa prog key N a0 w := by
  intro N
  induction N with
  | zero => intro a0 w _ _ _; trivial
  | succ N ih =>
    intro a0 w hr hm h
    simp only [Steady, NoBackground] at h ⊢
    cases hp : prog a0.pc with
    | error e => cases hq : Seq.step isa prog a0 <;> trivial
    | ok inst =>
      cases hq : Seq.step isa prog a0 with
      | error e => trivial
      | ok r =>
        rw [hp, hq] at h
        obtain ⟨a', b⟩ := r
        dsimp only at h ⊢
        have hsl : slowInst isa inst a0 w = false := by
          unfold slowInst; dsimp only; rw [h.1]
          have h1 : (isa.srcs inst).any w.reg = false := by
            apply List.any_eq_false.2; intro r _; rw [hr]; simp
          rw [h1]
          split
          · simp only [Bool.or_false, Bool.false_or]
            apply List.any_eq_false.2; intro r _; rw [hm]; simp
          · rfl
        refine ⟨fun r _ => hr r, ih a' _ ?_ ?_ h.2⟩
        · intro r; simp only [slowStep]; rw [hsl, hr]; simp
        · intro x; simp only [slowStep]; rw [hsl, hm]; split <;> simp

end
end Spf.Machine
