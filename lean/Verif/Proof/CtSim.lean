import Verif.Proof.CtLocal
import Verif.Proof.CellSim
/-! Simulation between processors on different contents of ciphertext cells. -/
namespace Spf.CtCpu
open Spf.Cpu Spf.Cells Spf.Seq Spf.Spec

variable {α β : Type} {R : α → β → Prop}

/-- related registers -/
def RegRel (R : α → β → Prop) : VReg α → VReg β → Prop
  | .plain v w, .plain v' w' => v = v' ∧ w = w'
  | .cts l, .cts l' => List.Forall₂ R l l'
  | _, _ => False

/-- related bytes of memory -/
def ByteRel (R : α → β → Prop) : Option (Byte α) → Option (Byte β) → Prop
  | none, none => True
  | some (.plain v), some (.plain v') => v = v'
  | some (.cipher l), some (.cipher l') => List.Forall₂ R l l'
  | _, _ => False

/-- related states -/
structure ArchRel (R : α → β → Prop) (a : Arch (VReg α) Nat (Option (Byte α))) (b : Arch (VReg β) Nat (Option (Byte β))) : Prop where
  reg : ∀ r, RegRel R (a.reg r) (b.reg r)
  mem : ∀ x, ByteRel R (a.mem x) (b.mem x)
  pc : a.pc = b.pc

theorem regRel_shape {x : VReg α} {y : VReg β} (h : RegRel R x y) : x.shape = y.shape := by
  match x, y, h with
  | .plain _ _, .plain _ _, ⟨rfl, rfl⟩ => rfl
  | .cts l, .cts l', h =>
    simp only [VReg.shape]
    rw [List.map_const', List.map_const', List.Forall₂.length_eq h]

theorem shapes_eq : ∀ {vs : List (VReg α)} {vs' : List (VReg β)}, List.Forall₂ (RegRel R) vs vs' → vs.map VReg.shape = vs'.map VReg.shape
  | _, _, .nil => rfl
  | _, _, .cons h hs => by rw [List.map_cons, List.map_cons, regRel_shape h, shapes_eq hs]

theorem number_eq : ∀ {vs : List (VReg α)} {vs' : List (VReg β)} (k : Nat), List.Forall₂ (RegRel R) vs vs' → number k vs = number k vs'
  | _, _, _, .nil => rfl
  | _, _, k, .cons (a := x) (b := y) h hs => by
    match x, y, h with
    | .plain _ _, .plain _ _, ⟨rfl, rfl⟩ => simp only [number]; rw [number_eq k hs]
    | .cts l, .cts l', h =>
      have hl : l.length = l'.length := List.Forall₂.length_eq h
      simp only [number]
      rw [hl, number_eq _ hs]

theorem bits_rel : ∀ {vs : List (VReg α)} {vs' : List (VReg β)}, List.Forall₂ (RegRel R) vs vs' → List.Forall₂ R (vs.flatMap VReg.bits) (vs'.flatMap VReg.bits)
  | _, _, .nil => .nil
  | _, _, .cons (a := x) (b := y) h hs => by
    rw [List.flatMap_cons, List.flatMap_cons]
    refine List.rel_append ?_ (bits_rel hs)
    match x, y, h with
    | .plain _ _, .plain _ _, _ => exact .nil
    | .cts l, .cts l', h => exact h

theorem getD_rel {x : α} {y : β} (hd : R x y) : ∀ {l : List α} {l' : List β}, List.Forall₂ R l l' → ∀ c, R (l.getD c x) (l'.getD c y)
  | _, _, .nil, _ => hd
  | _, _, .cons h _, 0 => h
  | _, _, .cons _ hs, c + 1 => getD_rel hd hs c

theorem total_eq {vs : List (VReg α)} {vs' : List (VReg β)} (h : List.Forall₂ (RegRel R) vs vs') : total vs = total vs' := List.Forall₂.length_eq (bits_rel h)

/-- One machine simulates another: the constants are related, and a job (among those in `J`) that succeeds on the second succeeds on the first, with related results. -/
structure DomSim (R : α → β → Prop) (D : Dom α) (D' : Dom β) (J : Job → Prop) : Prop where
  zero : R D.zero D'.zero
  one : R D.one D'.one
  run : ∀ (job : Job) (outs : List Nat) (val : Nat → α) (val' : Nat → β) (os' : List β), J job → Job.Ok job → outs.length = job.size → outs.Nodup → (∀ c ∈ job.ins, c ∉ outs) →
    (∀ c, R (val c) (val' c)) → D'.run job outs val' = some os' → ∃ os, D.run job outs val = some os ∧ List.Forall₂ R os os'

variable {D : Dom α} {D' : Dom β} {J : Job → Prop}

theorem value_rel (hD : DomSim R D D' J) {vs : List (VReg α)} {vs' : List (VReg β)} (h : List.Forall₂ (RegRel R) vs vs') (c : Nat) : R (value D vs c) (value D' vs' c) :=
  getD_rel hD.zero (.cons hD.zero (.cons hD.one (bits_rel h))) c

theorem ofCells_rel {val : Nat → α} {val' : Nat → β} (h : ∀ c, R (val c) (val' c)) (r : CReg) : RegRel R (VReg.ofCells val r) (VReg.ofCells val' r) := by
  cases r with
  | plain v w => exact ⟨rfl, rfl⟩
  | cells cs =>
    show List.Forall₂ R _ _
    rw [List.forall₂_map_left_iff, List.forall₂_map_right_iff]
    exact List.forall₂_same.2 fun c _ => h c

theorem number_cells : ∀ (vs : List (VReg α)) (k : Nat), ∀ r ∈ number k vs, ∀ c ∈ regCells r, c < k + total vs
  | [], _, _, h => by cases h
  | .plain v w :: vs, k, r, h => by
    simp only [number, List.mem_cons] at h
    have ht : total (.plain v w :: vs) = total vs := rfl
    rcases h with rfl | h
    · intro c hc; cases hc
    · rw [ht]; exact number_cells vs k r h
  | .cts l :: vs, k, r, h => by
    simp only [number, List.mem_cons] at h
    have ht : total (.cts l :: vs) = l.length + total vs := by simp [total, VReg.bits]
    rcases h with rfl | h
    · intro c hc
      simp only [regCells, List.mem_range'_1] at hc
      omega
    · intro c hc
      have := number_cells vs (k + l.length) r h c hc
      omega

/-- the job of an instruction is well formed and reads only the cells of its operands -/
theorem alu_job {i : Inst} {vs : List (VReg α)} {job : Job} {rs : List Nat → List CReg} (h : Cells.alu i (number 2 vs) = .ok (.spawn job rs)) :
    Job.Ok job ∧ ∀ c ∈ job.ins, c ∉ List.range' (total vs + 2) job.size := by
  have hs := alu_sim (μ := fun c => c == 1) (S := fun c => c < 2 + total vs) rfl rfl (by omega) (by omega) i (vs := number 2 vs) (number_cells vs 2)
  rw [h] at hs
  refine ⟨hs.1, fun c hc => ?_⟩
  have := hs.2.1 c hc
  simp only [List.mem_range'_1]
  omega

theorem alu_rel (hD : DomSim R D D' J) {i : Inst} (hJ : ∀ vs job rs, Cells.alu i vs = .ok (.spawn job rs) → J job) {vs : List (VReg α)} {vs' : List (VReg β)}
    (h : List.Forall₂ (RegRel R) vs vs') {rs' : List (VReg β)} (ha : alu D' i vs' = .ok rs') : ∃ rs, alu D i vs = .ok rs ∧ List.Forall₂ (RegRel R) rs rs' := by
  have hn := number_eq 2 h
  have ht := total_eq h
  unfold alu at ha ⊢
  rw [← hn, ← ht] at ha
  cases hc : Cells.alu i (number 2 vs) with
  | error e => rw [hc] at ha; cases ha
  | ok act =>
    rw [hc] at ha
    cases act with
    | done rs =>
      cases ha
      refine ⟨_, rfl, ?_⟩
      rw [List.forall₂_map_left_iff, List.forall₂_map_right_iff]
      exact List.forall₂_same.2 fun r _ => ofCells_rel (value_rel hD h) r
    | spawn job rs =>
      simp only at ha ⊢
      cases hr : D'.run job (List.range' (total vs + 2) job.size) (value D' vs') with
      | none => rw [hr] at ha; cases ha
      | some os' =>
        rw [hr] at ha
        cases ha
        obtain ⟨hok, hdis⟩ := alu_job hc
        obtain ⟨os, h1, h2⟩ := hD.run job _ _ _ os' (hJ _ _ _ hc) hok List.length_range' List.nodup_range' hdis (value_rel hD h) hr
        rw [h1]
        refine ⟨_, rfl, ?_⟩
        rw [List.forall₂_map_left_iff, List.forall₂_map_right_iff]
        exact List.forall₂_same.2 fun r _ => ofCells_rel (fun c => getD_rel hD.zero h2 _) r

/-! ### memory -/

theorem byteRel_cases {x : Option (Byte α)} {y : Option (Byte β)} (h : ByteRel R x y) :
    (x = none ∧ y = none) ∨ (∃ v, x = some (.plain v) ∧ y = some (.plain v)) ∨ ∃ l l', x = some (.cipher l) ∧ y = some (.cipher l') ∧ List.Forall₂ R l l' := by
  match x, y, h with
  | none, none, _ => exact Or.inl ⟨rfl, rfl⟩
  | some (.plain v), some (.plain _), rfl => exact Or.inr (Or.inl ⟨v, rfl, rfl⟩)
  | some (.cipher l), some (.cipher l'), h => exact Or.inr (Or.inr ⟨l, l', rfl, rfl, h⟩)

theorem loadPlains_rel {m : VView α} {m' : VView β} (hm : ∀ x, ByteRel R (m x) (m' x)) : ∀ {l : List Nat}, loadPlains m l = loadPlains m' l
  | [] => rfl
  | a :: as => by
    have ih := loadPlains_rel hm (l := as)
    simp only [loadPlains]
    rcases byteRel_cases (hm a) with ⟨h1, h2⟩ | ⟨v, h1, h2⟩ | ⟨l, l', h1, h2, _⟩ <;> rw [h1, h2] <;> simp only [ih]

theorem loadCts_rel {m : VView α} {m' : VView β} (hm : ∀ x, ByteRel R (m x) (m' x)) : ∀ {l : List Nat} {bs' : List β}, loadCts m' l = .ok bs' →
    ∃ bs, loadCts m l = .ok bs ∧ List.Forall₂ R bs bs'
  | [], _, h => by cases h; exact ⟨[], rfl, .nil⟩
  | a :: as, bs', h => by
    simp only [loadCts] at h ⊢
    rcases byteRel_cases (hm a) with ⟨h1, h2⟩ | ⟨v, h1, h2⟩ | ⟨l, l', h1, h2, h3⟩
    · rw [h2] at h; cases h
    · rw [h2] at h; cases h
    · rw [h2] at h
      rw [h1]
      simp only at h ⊢
      cases hl : loadCts m' as with
      | error e => rw [hl] at h; cases h
      | ok b' =>
        rw [hl] at h
        cases h
        obtain ⟨b, e1, e2⟩ := loadCts_rel hm hl
        rw [e1]
        exact ⟨_, rfl, List.rel_append h3 e2⟩

theorem loadReg_rel {m : VView α} {m' : VView β} (hm : ∀ x, ByteRel R (m x) (m' x)) {w : Nat} {l : List Nat} {r' : VReg β} (h : loadReg m' w l = .ok r') :
    ∃ r, loadReg m w l = .ok r ∧ RegRel R r r' := by
  cases l with
  | nil => cases h
  | cons a as =>
    simp only [loadReg] at h ⊢
    rcases byteRel_cases (hm a) with ⟨h1, h2⟩ | ⟨v, h1, h2⟩ | ⟨l, l', h1, h2, h3⟩
    · rw [h2] at h; cases h
    · rw [h2] at h
      rw [h1]
      simp only [loadPlains_rel hm] at h ⊢
      cases hl : loadPlains m' as with
      | error e => rw [hl] at h; cases h
      | ok bs => rw [hl] at h; cases h; exact ⟨_, rfl, rfl, rfl⟩
    · rw [h2] at h
      rw [h1]
      simp only at h ⊢
      cases hl : loadCts m' as with
      | error e => rw [hl] at h; cases h
      | ok b' =>
        rw [hl] at h
        cases h
        obtain ⟨b, e1, e2⟩ := loadCts_rel hm hl
        rw [e1]
        exact ⟨_, rfl, List.rel_append h3 e2⟩

theorem storeByte_rel {v : VReg α} {v' : VReg β} (hv : RegRel R v v') {i : Nat} {b' : Byte β} (h : storeByte v' i = .ok b') : ∃ b, storeByte v i = .ok b ∧ ByteRel R (some b) (some b') := by
  match v, v', hv with
  | .plain x w, .plain _ _, ⟨rfl, rfl⟩ => cases h; exact ⟨_, rfl, rfl⟩
  | .cts l, .cts l', hv =>
    simp only [storeByte] at h ⊢
    rw [List.Forall₂.length_eq hv]
    by_cases hc : 8 * i + 8 ≤ l'.length
    · rw [if_pos hc] at h ⊢
      cases h
      exact ⟨_, rfl, List.forall₂_take _ (List.forall₂_drop _ hv)⟩
    · rw [if_neg hc] at h; cases h

theorem storeBytes_rel {v : VReg α} {v' : VReg β} (hv : RegRel R v v') : ∀ {l : List Nat} {i : Nat} {m : VView α} {m' n' : VView β}, (∀ x, ByteRel R (m x) (m' x)) →
    storeBytes v' l i m' = .ok n' → ∃ n, storeBytes v l i m = .ok n ∧ ∀ x, ByteRel R (n x) (n' x)
  | [], _, m, _, _, hm, h => by cases h; exact ⟨m, rfl, hm⟩
  | a :: as, i, m, m', n', hm, h => by
    simp only [storeBytes] at h ⊢
    cases hb : storeByte v' i with
    | error e => rw [hb] at h; cases h
    | ok b' =>
      rw [hb] at h
      obtain ⟨b, e1, e2⟩ := storeByte_rel hv hb
      rw [e1]
      simp only at h ⊢
      have hne : (m a).isSome = (m' a).isSome := by
        rcases byteRel_cases (hm a) with ⟨h1, h2⟩ | ⟨v, h1, h2⟩ | ⟨l, l', h1, h2, h3⟩ <;> rw [h1, h2] <;> rfl
      cases hma : m' a with
      | none => rw [hma] at h; cases h
      | some y =>
        rw [hma] at h hne
        cases hma2 : m a with
        | none => rw [hma2] at hne; cases hne
        | some z =>
          simp only at h ⊢
          refine storeBytes_rel hv (fun x => ?_) h
          by_cases hx : x = a
          · rw [if_pos hx, if_pos hx]; exact e2
          · rw [if_neg hx, if_neg hx]; exact hm x

theorem forall2_getD {γ δ : Type} {Q : γ → δ → Prop} {x : γ} {y : δ} (hd : Q x y) {l : List γ} {l' : List δ} (h : List.Forall₂ Q l l') (c : Nat) : Q (l.getD c x) (l'.getD c y) := getD_rel hd h c

theorem exec_rel (hD : DomSim R D D' J) {i : Inst} (hJ : ∀ vs job rs, Cells.alu i vs = .ok (.spawn job rs) → J job) {vs : List (VReg α)} {vs' : List (VReg β)}
    (h : List.Forall₂ (RegRel R) vs vs') {m : VView α} {m' n' : VView β} (hm : ∀ x, ByteRel R (m x) (m' x)) {rs' : List (VReg β)} (ha : exec D' i vs' m' = .ok (rs', n')) :
    ∃ rs n, exec D i vs m = .ok (rs, n) ∧ List.Forall₂ (RegRel R) rs rs' ∧ ∀ x, ByteRel R (n x) (n' x) := by
  have hsh := shapes_eq h
  by_cases h1 : i.op = .load
  · simp only [exec, h1] at ha ⊢
    rw [hsh]
    cases hsp : span (vs'.map VReg.shape) (i.nat 2) (i.arg 3) with
    | error e => rw [hsp] at ha; cases ha
    | ok l =>
      rw [hsp] at ha
      simp only at ha ⊢
      cases hl : loadReg m' (i.nat 2) l with
      | error e => rw [hl] at ha; cases ha
      | ok r' =>
        rw [hl] at ha
        cases ha
        obtain ⟨r, e1, e2⟩ := loadReg_rel hm hl
        rw [e1]
        exact ⟨_, _, rfl, .cons e2 .nil, hm⟩
  · by_cases h2 : i.op = .store
    · simp only [exec, h2] at ha ⊢
      by_cases hc : i.nat 0 = i.nat 1
      · rw [if_pos hc] at ha; cases ha
      rw [if_neg hc] at ha ⊢
      rw [hsh]
      cases hsp : span (vs'.map VReg.shape) (i.nat 2) (i.arg 3) with
      | error e => rw [hsp] at ha; cases ha
      | ok l =>
        rw [hsp] at ha
        simp only at ha ⊢
        cases hl : storeBytes (vs'.getD 1 (.plain 0 32)) l 0 m' with
        | error e => rw [hl] at ha; cases ha
        | ok r' =>
          rw [hl] at ha
          cases ha
          obtain ⟨n, e1, e2⟩ := storeBytes_rel (forall2_getD (Q := RegRel R) (x := .plain 0 32) (y := .plain 0 32) ⟨rfl, rfl⟩ h 1) hm hl
          rw [e1]
          exact ⟨_, _, rfl, .nil, e2⟩
    · rw [exec_alu D' h1 h2] at ha
      rw [exec_alu D h1 h2]
      cases hal : alu D' i vs' with
      | error e => rw [hal] at ha; cases ha
      | ok o =>
        rw [hal] at ha
        cases ha
        obtain ⟨rs, e1, e2⟩ := alu_rel hD hJ h hal
        rw [e1]
        exact ⟨_, _, rfl, e2, hm⟩

theorem assign_rel {outs : List (VReg α)} {outs' : List (VReg β)} (ho : List.Forall₂ (RegRel R) outs outs') : ∀ (ds : List Nat) (k : Nat) {reg : Nat → VReg α} {reg' : Nat → VReg β},
    (∀ r, RegRel R (reg r) (reg' r)) → ∀ r, RegRel R (assign reg (.plain 0 32) outs k ds r) (assign reg' (.plain 0 32) outs' k ds r)
  | [], _, _, _, h, r => h r
  | d :: ds, k, reg, reg', h, r => by
    simp only [assign]
    refine assign_rel ho ds (k + 1) (fun r => ?_) r
    by_cases hr : r = d
    · rw [if_pos hr, if_pos hr]; exact forall2_getD (Q := RegRel R) (x := .plain 0 32) (y := .plain 0 32) ⟨rfl, rfl⟩ ho k
    · rw [if_neg hr, if_neg hr]; exact h r

theorem srcs_rel {a : Arch (VReg α) Nat (Option (Byte α))} {a' : Arch (VReg β) Nat (Option (Byte β))} (h : ArchRel R a a') (l : List Nat) :
    List.Forall₂ (RegRel R) (l.map a.reg) (l.map a'.reg) := by
  rw [List.forall₂_map_left_iff, List.forall₂_map_right_iff]
  exact List.forall₂_same.2 fun r _ => h.reg r

/-- the jobs of a program -/
def JobsOf (prog : Nat → Except Err Inst) (J : Job → Prop) : Prop := ∀ pc i, prog pc = .ok i → ∀ vs job rs, Cells.alu i vs = .ok (.spawn job rs) → J job

theorem step_rel (hD : DomSim R D D' J) {prog : Nat → Except Err Inst} (hJ : JobsOf prog J) {a : Arch (VReg α) Nat (Option (Byte α))}
    {a' b' : Arch (VReg β) Nat (Option (Byte β))} (h : ArchRel R a a') {halted : Bool} (hs : Seq.step (isa D') prog a' = .ok (b', halted)) :
    ∃ b, Seq.step (isa D) prog a = .ok (b, halted) ∧ ArchRel R b b' := by
  unfold Seq.step at hs ⊢
  rw [h.pc]
  cases hp : prog a'.pc with
  | error e => rw [hp] at hs; cases hs
  | ok i =>
    rw [hp] at hs
    have hsr := srcs_rel h i.srcs
    have hsh := shapes_eq hsr
    simp only [effect, isa] at hs ⊢
    rw [hsh]
    cases hac : i.access ((i.srcs.map a'.reg).map VReg.shape) with
    | error e => rw [hac] at hs; cases hs
    | ok l =>
      rw [hac] at hs
      simp only at hs ⊢
      cases hex : exec D' i (i.srcs.map a'.reg) a'.mem with
      | error e => rw [hex] at hs; cases hs
      | ok res =>
        obtain ⟨rs', n'⟩ := res
        rw [hex] at hs
        obtain ⟨rs, n, e1, e2, e3⟩ := exec_rel hD (hJ _ _ hp) hsr h.mem hex
        rw [e1]
        simp only at hs ⊢
        cases hnx : i.next a'.pc ((i.srcs.map a'.reg).map VReg.shape) with
        | ok pc' =>
          rw [hnx] at hs
          cases hs
          exact ⟨_, rfl, assign_rel e2 _ _ h.reg, e3, rfl⟩
        | error e =>
          rw [hnx] at hs
          cases e <;> try cases hs
          exact ⟨_, rfl, assign_rel e2 _ _ h.reg, e3, h.pc⟩

theorem returns_rel (hD : DomSim R D D' J) {prog : Nat → Except Err Inst} (hJ : JobsOf prog J) : ∀ (k : Nat) {a : Arch (VReg α) Nat (Option (Byte α))}
    {a' b' : Arch (VReg β) Nat (Option (Byte β))}, ArchRel R a a' → Returns (isa D') prog k a' b' → ∃ b, Returns (isa D) prog k a b ∧ ArchRel R b b'
  | 0, _, _, _, _, h => absurd h id
  | k + 1, a, a', b', hr, h => by
    unfold Returns at h
    cases hs : Seq.step (isa D') prog a' with
    | error e => rw [hs] at h; exact absurd h id
    | ok res =>
      obtain ⟨c', halted⟩ := res
      rw [hs] at h
      obtain ⟨c, e1, e2⟩ := step_rel hD hJ hr hs
      cases halted with
      | true =>
        obtain ⟨rfl, rfl⟩ := h
        refine ⟨c, ?_, e2⟩
        unfold Returns; rw [e1]; exact ⟨rfl, rfl⟩
      | false =>
        obtain ⟨b, f1, f2⟩ := returns_rel hD hJ k e2 h
        refine ⟨b, ?_, f2⟩
        unfold Returns; rw [e1]; exact f1

theorem steady_rel (hD : DomSim R D D' J) {prog : Nat → Except Err Inst} (hJ : JobsOf prog J) {key : Inst → Nat} : ∀ (k : Nat) {a : Arch (VReg α) Nat (Option (Byte α))}
    {a' b' : Arch (VReg β) Nat (Option (Byte β))} {w : Slow Nat}, ArchRel R a a' → Returns (isa D') prog k a' b' → Steady (isa D') prog key k a' w → Steady (isa D) prog key k a w
  | 0, _, _, _, _, _, h, _ => absurd h id
  | k + 1, a, a', b', w, hr, h, hst => by
    unfold Returns at h
    unfold Steady at hst ⊢
    rw [hr.pc]
    cases hs : Seq.step (isa D') prog a' with
    | error e => rw [hs] at h; exact absurd h id
    | ok res =>
      obtain ⟨c', halted⟩ := res
      obtain ⟨c, e1, e2⟩ := step_rel hD hJ hr hs
      rw [hs] at h
      cases hp : prog a'.pc with
      | error e => simp only
      | ok i =>
        rw [hs, hp] at hst
        rw [e1]
        simp only at hst ⊢
        refine ⟨hst.1, ?_⟩
        have hsh := shapes_eq (srcs_rel hr i.srcs)
        have hw : slowStep (isa D) i a w = slowStep (isa D') i a' w := by
          simp only [slowStep, slowInst, isa, hsh]
          rfl
        rw [hw]
        cases halted with
        | true =>
          obtain ⟨rfl, rfl⟩ := h
          unfold Steady; trivial
        | false => exact steady_rel hD hJ k e2 h hst.2

theorem steady_rel' (hD : DomSim R D D' J) {prog : Nat → Except Err Inst} (hJ : JobsOf prog J) {key : Inst → Nat} : ∀ (k : Nat) {a : Arch (VReg α) Nat (Option (Byte α))}
    {a' b' : Arch (VReg β) Nat (Option (Byte β))} {w : Slow Nat}, ArchRel R a a' → Returns (isa D') prog k a' b' → Steady (isa D) prog key k a w → Steady (isa D') prog key k a' w
  | 0, _, _, _, _, _, h, _ => absurd h id
  | k + 1, a, a', b', w, hr, h, hst => by
    unfold Returns at h
    unfold Steady at hst ⊢
    rw [hr.pc] at hst
    cases hs : Seq.step (isa D') prog a' with
    | error e => rw [hs] at h; exact absurd h id
    | ok res =>
      obtain ⟨c', halted⟩ := res
      obtain ⟨c, e1, e2⟩ := step_rel hD hJ hr hs
      rw [hs] at h
      cases hp : prog a'.pc with
      | error e => simp only
      | ok i =>
        rw [e1, hp] at hst
        simp only at hst ⊢
        refine ⟨hst.1, ?_⟩
        have hsh := shapes_eq (srcs_rel hr i.srcs)
        have hw : slowStep (isa D) i a w = slowStep (isa D') i a' w := by
          simp only [slowStep, slowInst, isa, hsh]
          rfl
        rw [← hw]
        cases halted with
        | true =>
          obtain ⟨rfl, rfl⟩ := h
          unfold Steady; trivial
        | false => exact steady_rel' hD hJ k e2 h hst.2

end Spf.CtCpu
