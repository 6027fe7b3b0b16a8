import Verif.Spec.CellMachine
import Verif.Proof.CellSim
import Verif.Proof.CellAlu
import Verif.Props.Computer
/-! A program on ciphertexts follows the program on the bits they encrypt. -/
namespace Spf.Cells
open Spf.Spec Spf.Cpu Spf.Fluent Spf.Fhe Spf.CtExec Spf.Props Spf.Tfhe

variable {μ μ' : Nat → Bool} {S : Nat → Prop}

theorem shape_eq (r : CReg) : r.shape = CReg.plainOf (fun _ => false) r := by cases r <;> rfl

theorem span_shape (vs : List CReg) (w : Nat) (o : Int) : span (vs.map CReg.shape) w o = span (vs.map (CReg.plainOf μ)) w o := by
  cases vs with
  | nil => rfl
  | cons v vs => cases v <;> rfl

theorem access_shape (i : Inst) (vs : List CReg) : i.access (vs.map CReg.shape) = i.access (vs.map (CReg.plainOf μ)) := by
  unfold Inst.access
  cases i.op <;> first | rfl | exact span_shape vs _ _

theorem next_shape (i : Inst) (pc : Nat) (vs : List CReg) : i.next pc (vs.map CReg.shape) = i.next pc (vs.map (CReg.plainOf μ)) := by
  unfold Inst.next
  cases i.op <;> first | rfl | (cases vs with | nil => rfl | cons v vs => cases v <;> rfl)

/-- the memory of the bits -/
def bview (μ : Nat → Bool) (m : CView) : View := fun a => (m a).map (byteOf μ)

theorem bview_at (μ : Nat → Bool) (m : CView) (a : Nat) : bview μ m a = (m a).map (byteOf μ) := rfl

theorem loadPlains_sim (m : CView) : ∀ as, Cpu.loadPlains (bview μ m) as = loadPlains m as
  | [] => rfl
  | a :: as => by
    simp only [Cpu.loadPlains, loadPlains, bview_at, loadPlains_sim m as]
    cases m a with
    | none => rfl
    | some b => cases b <;> rfl

theorem loadCells_sim (m : CView) : ∀ as, Cpu.loadCiphers (bview μ m) as = (match loadCells m as with | .error e => .error e | .ok cs => .ok (cs.map μ))
  | [] => rfl
  | a :: as => by
    simp only [Cpu.loadCiphers, loadCells, bview_at, loadCells_sim m as]
    cases m a with
    | none => rfl
    | some b =>
      cases b with
      | plain v => rfl
      | cipher cs =>
        simp only [Option.map_some, byteOf]
        cases loadCells m as with
        | error e => rfl
        | ok r => simp

theorem loadReg_sim (m : CView) (w : Nat) : ∀ as, Cpu.loadReg (bview μ m) w as = (match loadReg m w as with | .error e => .error e | .ok r => .ok (CReg.plainOf μ r))
  | [] => rfl
  | a :: as => by
    simp only [Cpu.loadReg, loadReg, bview_at, loadCells_sim m as, loadPlains_sim m as]
    cases m a with
    | none => rfl
    | some b =>
      cases b with
      | plain v =>
        simp only [Option.map_some, byteOf]
        cases loadPlains m as with
        | error e => rfl
        | ok r => rfl
      | cipher cs =>
        simp only [Option.map_some, byteOf]
        cases loadCells m as with
        | error e => rfl
        | ok r => simp

theorem loadCells_mem {m : CView} : ∀ {as : List Nat} {cs : List Nat}, loadCells m as = .ok cs → ∀ c ∈ cs, ∃ a bs, m a = some (.cipher bs) ∧ c ∈ bs
  | [], cs, h, c, hc => by cases h; cases hc
  | a :: as, cs, h, c, hc => by
    simp only [loadCells] at h
    cases hm : m a with
    | none => rw [hm] at h; cases h
    | some b =>
      rw [hm] at h
      cases b with
      | plain v => cases h
      | cipher bs =>
        simp only at h
        cases hl : loadCells m as with
        | error e => rw [hl] at h; cases h
        | ok r =>
          rw [hl] at h; cases h
          rcases List.mem_append.1 hc with h | h
          · exact ⟨a, bs, hm, h⟩
          · exact loadCells_mem hl c h

theorem loadReg_mem {m : CView} {w : Nat} {as : List Nat} {r : CReg} (h : loadReg m w as = .ok r) : ∀ c ∈ regCells r, ∃ a bs, m a = some (.cipher bs) ∧ c ∈ bs := by
  cases as with
  | nil => cases h
  | cons a as =>
    simp only [loadReg] at h
    cases hm : m a with
    | none => rw [hm] at h; cases h
    | some b =>
      rw [hm] at h
      cases b with
      | plain v =>
        simp only at h
        cases hl : loadPlains m as with
        | error e => rw [hl] at h; cases h
        | ok r => rw [hl] at h; cases h; simp [regCells]
      | cipher bs =>
        simp only at h
        cases hl : loadCells m as with
        | error e => rw [hl] at h; cases h
        | ok r =>
          rw [hl] at h; cases h
          intro c hc
          rcases List.mem_append.1 hc with h | h
          · exact ⟨a, bs, hm, h⟩
          · exact loadCells_mem hl c h

theorem storeByte_sim (v : CReg) (i : Nat) : Cpu.storeByte (CReg.plainOf μ v) i = (match storeByte v i with | .error e => .error e | .ok b => .ok (byteOf μ b)) := by
  cases v with
  | plain x w => rfl
  | cells cs =>
    simp only [Cpu.storeByte, storeByte, plainOf_cells, List.length_map]
    by_cases h : 8 * i + 8 ≤ cs.length
    · rw [if_pos h, if_pos h]; simp [byteOf, List.map_take, List.map_drop]
    · rw [if_neg h, if_neg h]

theorem storeBytes_sim (v : CReg) : ∀ (as : List Nat) (i : Nat) (m : CView),
    Cpu.storeBytes (CReg.plainOf μ v) as i (bview μ m) = (match storeBytes v as i m with | .error e => .error e | .ok m' => .ok (bview μ m'))
  | [], _, _ => rfl
  | a :: as, i, m => by
    simp only [Cpu.storeBytes, storeBytes, storeByte_sim, bview_at]
    cases storeByte v i with
    | error e => rfl
    | ok b =>
      simp only
      cases hm : m a with
      | none => rfl
      | some b' =>
        simp only [Option.map_some]
        rw [← storeBytes_sim v as (i + 1)]
        congr 1
        funext x
        simp only [bview_at]
        by_cases hx : x = a
        · rw [if_pos hx, if_pos hx]; rfl
        · rw [if_neg hx, if_neg hx]

theorem storeBytes_mem {v : CReg} : ∀ {as : List Nat} {i : Nat} {m m' : CView}, storeBytes v as i m = .ok m' →
    ∀ a cs, m' a = some (.cipher cs) → ∀ c ∈ cs, c ∈ regCells v ∨ ∃ bs, m a = some (.cipher bs) ∧ c ∈ bs
  | [], _, m, m', h, a, cs, ha, c, hc => by cases h; exact Or.inr ⟨cs, ha, hc⟩
  | x :: as, i, m, m', h, a, cs, ha, c, hc => by
    simp only [storeBytes] at h
    cases hb : storeByte v i with
    | error e => rw [hb] at h; cases h
    | ok b =>
      rw [hb] at h
      simp only at h
      cases hm : m x with
      | none => rw [hm] at h; cases h
      | some b' =>
        rw [hm] at h
        simp only at h
        rcases storeBytes_mem h a cs ha c hc with h1 | ⟨bs, h1, h2⟩
        · exact Or.inl h1
        · by_cases hx : a = x
          · rw [if_pos hx] at h1
            left
            cases v with
            | plain y w => simp only [storeByte, Except.ok.injEq] at hb; subst hb; cases h1
            | cells ds =>
              simp only [storeByte] at hb
              split at hb
              · cases hb
                cases h1
                exact List.mem_of_mem_drop (List.mem_of_mem_take h2)
              · cases hb
          · rw [if_neg hx] at h1
            exact Or.inr ⟨bs, h1, h2⟩

theorem writeRegs_sim (reg : Nat → CReg) (outs : List CReg) : ∀ (ds : List Nat) (k : Nat) (reg : Nat → CReg) (r : Nat),
    CReg.plainOf μ (writeRegs reg outs k ds r) = Seq.assign (fun r => CReg.plainOf μ (reg r)) Reg.default (outs.map (CReg.plainOf μ)) k ds r
  | [], _, _, _ => rfl
  | d :: ds, k, reg, r => by
    simp only [writeRegs, Seq.assign]
    rw [writeRegs_sim reg outs ds (k + 1)]
    congr 1
    funext x
    by_cases hx : x = d
    · rw [if_pos hx, if_pos hx]
      simp only [List.getD_eq_getElem?_getD, List.getElem?_map]
      cases outs[k]? <;> rfl
    · rw [if_neg hx, if_neg hx]

theorem writeRegs_mem {outs : List CReg} : ∀ {ds : List Nat} {k : Nat} {reg : Nat → CReg} {r c : Nat}, c ∈ regCells (writeRegs reg outs k ds r) →
    c ∈ regCells (reg r) ∨ ∃ o ∈ outs, c ∈ regCells o
  | [], _, _, _, _, h => Or.inl h
  | d :: ds, k, reg, r, c, h => by
    simp only [writeRegs] at h
    rcases writeRegs_mem h with h | h
    · by_cases hx : r = d
      · rw [if_pos hx] at h
        rw [List.getD_eq_getElem?_getD] at h
        cases ho : outs[k]? with
        | none => rw [ho] at h; simp [CReg.default, regCells] at h
        | some o => rw [ho] at h; exact Or.inr ⟨o, List.mem_of_getElem? ho, h⟩
      · rw [if_neg hx] at h; exact Or.inl h
    · exact Or.inr h

/-- what an executed instruction does to the bits -/
theorem exec_sim (h0 : μ 0 = false) (h1 : μ 1 = true) (hz : S 0) (ho : S 1) {i : Inst} {vs : List CReg} (hv : ∀ r ∈ vs, ∀ c ∈ regCells r, S c) {m : CView}
    (hm : ∀ a cs, m a = some (.cipher cs) → ∀ c ∈ cs, S c) {fresh : Nat} {job : Option (Job × List Nat)} {rs : List CReg} {m' : CView} (h : exec i vs m fresh = .ok (job, rs, m')) :
    match job with
    | none => i.exec (vs.map (CReg.plainOf μ)) (bview μ m) = .ok (rs.map (CReg.plainOf μ), bview μ m') ∧ (∀ r ∈ rs, ∀ c ∈ regCells r, S c) ∧ ∀ a cs, m' a = some (.cipher cs) → ∀ c ∈ cs, S c
    | some (job, outs) => m' = m ∧ outs = List.range' fresh job.size ∧ Job.Ok job ∧ (∀ c ∈ job.ins, S c) ∧ (∀ r ∈ rs, ∀ c ∈ regCells r, c ∈ outs) ∧
      ∀ μ', outs.map μ' = Job.bits μ job → i.exec (vs.map (CReg.plainOf μ)) (bview μ m) = .ok (rs.map (CReg.plainOf μ'), bview μ m) := by
  have general : (match alu i vs with
      | .error e => .error e
      | .ok (.done rs) => .ok (none, rs, m)
      | .ok (.spawn job rs) => .ok (some (job, List.range' fresh job.size), rs (List.range' fresh job.size), m) : Except Err _) = .ok (job, rs, m') →
      (∀ vs' : List Reg, ∀ m' : View, i.exec vs' m' = (match i.alu vs' with | .error e => .error e | .ok o => .ok (o, m'))) →
    match job with
    | none => i.exec (vs.map (CReg.plainOf μ)) (bview μ m) = .ok (rs.map (CReg.plainOf μ), bview μ m') ∧ (∀ r ∈ rs, ∀ c ∈ regCells r, S c) ∧ ∀ a cs, m' a = some (.cipher cs) → ∀ c ∈ cs, S c
    | some (job, outs) => m' = m ∧ outs = List.range' fresh job.size ∧ Job.Ok job ∧ (∀ c ∈ job.ins, S c) ∧ (∀ r ∈ rs, ∀ c ∈ regCells r, c ∈ outs) ∧
      ∀ μ', outs.map μ' = Job.bits μ job → i.exec (vs.map (CReg.plainOf μ)) (bview μ m) = .ok (rs.map (CReg.plainOf μ'), bview μ m) := by
    intro h hex
    have hs := alu_sim h0 h1 hz ho i hv
    cases ha : alu i vs with
    | error e => rw [ha] at h; cases h
    | ok act =>
      rw [ha] at h hs
      cases act with
      | done rs' =>
        cases h
        obtain ⟨s1, s2⟩ := hs
        refine ⟨?_, s2, hm⟩
        rw [hex, s1]
      | spawn job' rs' =>
        cases h
        obtain ⟨s1, s2, s3⟩ := hs
        have hlen : (List.range' fresh job'.size).length = job'.size := List.length_range'
        refine ⟨rfl, rfl, s1, s2, ?_, fun μ' hμ' => ?_⟩
        · intro r hr c hc
          have hbl : (Job.bits μ job').length = job'.size := by
            cases job' <;> simp [Job.bits, Job.size]
            all_goals (have : _ = _ := s1; omega)
          obtain ⟨_, s4⟩ := s3 (fun c => (Job.bits μ job').getD (c - fresh) false) (List.range' fresh job'.size) hlen (by
            refine List.ext_getElem (by simp [hbl]) fun j j1 j2 => ?_
            simp [List.getD_eq_getElem?_getD, List.getElem?_eq_getElem j2])
          exact s4 r hr c hc
        · rw [hex, (s3 μ' _ hlen hμ').1]
  unfold exec at h
  cases hop : i.op
  case load =>
    rw [hop] at h
    simp only [span_shape (μ := μ)] at h
    cases hsp : span (vs.map (CReg.plainOf μ)) (i.nat 2) (i.arg 3) with
    | error e => rw [hsp] at h; cases h
    | ok l =>
      rw [hsp] at h
      simp only at h
      cases hl : loadReg m (i.nat 2) l with
      | error e => rw [hl] at h; cases h
      | ok r =>
        rw [hl] at h; cases h
        refine ⟨?_, ?_, hm⟩
        · simp only [Inst.exec, hop, hsp, loadReg_sim, hl]; rfl
        · intro r' hr' c hc
          rw [List.mem_singleton.1 hr'] at hc
          obtain ⟨a, bs, h1, h2⟩ := loadReg_mem hl c hc
          exact hm a bs h1 c h2
  case store =>
    rw [hop] at h
    simp only [span_shape (μ := μ)] at h
    by_cases hd : i.nat 0 = i.nat 1
    · rw [if_pos hd] at h; cases h
    rw [if_neg hd] at h
    cases hsp : span (vs.map (CReg.plainOf μ)) (i.nat 2) (i.arg 3) with
    | error e => rw [hsp] at h; cases h
    | ok l =>
      rw [hsp] at h
      simp only at h
      cases hl : storeBytes (vs.getD 1 .default) l 0 m with
      | error e => rw [hl] at h; cases h
      | ok m1 =>
        rw [hl] at h; cases h
        refine ⟨?_, by simp, ?_⟩
        · have hg : (vs.map (CReg.plainOf μ)).getD 1 Reg.default = CReg.plainOf μ (vs.getD 1 .default) := by
            simp only [List.getD_eq_getElem?_getD, List.getElem?_map]
            cases vs[1]? <;> rfl
          simp only [Inst.exec, hop, if_neg hd, hsp, hg, storeBytes_sim, hl]; rfl
        · intro a cs ha c hc
          rcases storeBytes_mem hl a cs ha c hc with h | ⟨bs, h1, h2⟩
          · rw [List.getD_eq_getElem?_getD] at h
            cases ho' : vs[1]? with
            | none => rw [ho'] at h; simp [CReg.default, regCells] at h
            | some o => rw [ho'] at h; exact hv o (List.mem_of_getElem? ho') c h
          · exact hm a bs h1 c h2
  all_goals
    rw [hop] at h
    exact general h fun vs' m' => by unfold Inst.exec; rw [hop]; cases i.alu vs' <;> rfl

/-- the bits of the cells after new ones, from `fresh` on, have been written -/
def upd (μ : Nat → Bool) (fresh : Nat) (bits : List Bool) : Nat → Bool := fun c => if c < fresh then μ c else bits.getD (c - fresh) false

theorem upd_old {fresh : Nat} {bits : List Bool} {c : Nat} (h : c < fresh) : upd μ fresh bits c = μ c := if_pos h

theorem upd_new {fresh : Nat} {bits : List Bool} : (List.range' fresh bits.length).map (upd μ fresh bits) = bits := by
  refine List.ext_getElem (by simp) fun j j1 j2 => ?_
  simp [upd, List.getD_eq_getElem?_getD, List.getElem?_eq_getElem j2]

theorem bits_length {job : Job} (h : Job.Ok job) : (Job.bits μ job).length = job.size := by
  cases job <;> simp [Job.bits, Job.size]
  all_goals (have : _ = _ := h; omega)

theorem plainOf_congr {r : CReg} (h : ∀ c ∈ regCells r, μ c = μ' c) : CReg.plainOf μ r = CReg.plainOf μ' r := by
  cases r with
  | plain v w => rfl
  | cells cs => exact congrArg Reg.cipher (List.map_congr_left h)

theorem byteOf_congr {b : Byte Nat} (h : ∀ cs, b = .cipher cs → ∀ c ∈ cs, μ c = μ' c) : byteOf μ b = byteOf μ' b := by
  cases b with
  | plain v => rfl
  | cipher cs => simp only [byteOf]; rw [List.map_congr_left (h cs rfl)]

theorem uses_reg {s : CState} {r c : Nat} (h : c ∈ regCells (s.reg r)) : CState.Uses s c := by
  cases hr : s.reg r with
  | plain v w => rw [hr] at h; cases h
  | cells cs => rw [hr] at h; exact Or.inl ⟨r, cs, hr, h⟩

theorem archOf_congr {s : CState} (h : ∀ c, CState.Uses s c → μ c = μ' c) : CState.archOf μ s = CState.archOf μ' s := by
  simp only [CState.archOf, Seq.Arch.mk.injEq, and_true]
  refine ⟨funext fun r => plainOf_congr fun c hc => h c (uses_reg hc), funext fun a => ?_⟩
  cases ha : s.mem a with
  | none => rfl
  | some b =>
    simp only [Option.map_some]
    rw [byteOf_congr fun cs hb c hc => h c (Or.inr ⟨a, cs, by rw [ha, hb], hc⟩)]

/-- the bits after an instruction -/
def after (μ : Nat → Bool) (s : CState) : Option (Job × List Nat) → Nat → Bool
  | none => μ
  | some (job, _) => upd μ s.fresh (Job.bits μ job)

/-- **One instruction.** -/
theorem step_sim (h0 : μ 0 = false) (h1 : μ 1 = true) {prog : Nat → Except Err Inst} {s s' : CState} (hf : 2 ≤ s.fresh) (hu : ∀ c, CState.Uses s c → c < s.fresh)
    {job : Option (Job × List Nat)} {halted : Bool} (h : step prog s = .ok (job, s', halted)) :
    Seq.step parasol prog (CState.archOf μ s) = .ok (CState.archOf (after μ s job) s', halted) ∧
    (∀ c, CState.Uses s' c → (CState.Uses s c ∨ c ≤ 1) ∨ ∃ j outs, job = some (j, outs) ∧ c ∈ outs) ∧ s'.fresh = s.fresh + allocated job ∧
    ∀ j outs, job = some (j, outs) → outs = List.range' s.fresh j.size ∧ Job.Ok j ∧ ∀ c ∈ j.ins, CState.Uses s c ∨ c ≤ 1 := by
  unfold step at h
  cases hp : prog s.pc with
  | error e => rw [hp] at h; cases h
  | ok i =>
    rw [hp] at h
    simp only [access_shape (μ := μ), next_shape (μ := μ)] at h
    cases hac : i.access ((i.srcs.map s.reg).map (CReg.plainOf μ)) with
    | error e => rw [hac] at h; cases h
    | ok l =>
      rw [hac] at h
      simp only at h
      cases hex : exec i (i.srcs.map s.reg) s.mem s.fresh with
      | error e => rw [hex] at h; cases h
      | ok res =>
        obtain ⟨job', rs, m'⟩ := res
        rw [hex] at h
        simp only at h
        have hsim := exec_sim (μ := μ) (S := fun c => CState.Uses s c ∨ c ≤ 1) h0 h1 (Or.inr (by omega)) (Or.inr (by omega)) (vs := i.srcs.map s.reg) (m := s.mem) (by
          intro r hr c hc
          obtain ⟨k, _, rfl⟩ := List.mem_map.1 hr
          exact Or.inl (uses_reg hc)) (fun a cs ha c hc => Or.inl (Or.inr ⟨a, cs, ha, hc⟩)) hex
        have hmap : (i.srcs.map s.reg).map (CReg.plainOf μ) = i.srcs.map (CState.archOf μ s).reg := by rw [List.map_map]; rfl
        -- the state after the instruction, before the program counter is set
        generalize hs1 : (⟨writeRegs s.reg rs 0 i.dsts, m', s.pc, s.fresh + allocated job'⟩ : CState) = s1 at h
        have hreg : s1.reg = writeRegs s.reg rs 0 i.dsts := by rw [← hs1]
        have hmem : s1.mem = m' := by rw [← hs1]
        have hfr : s1.fresh = s.fresh + allocated job' := by rw [← hs1]
        have heff : Seq.effect parasol i (CState.archOf μ s) = .ok (CState.archOf (after μ s job') s1) ∧
            (∀ c, CState.Uses s1 c → (CState.Uses s c ∨ c ≤ 1) ∨ ∃ j outs, job' = some (j, outs) ∧ c ∈ outs) ∧
            ∀ j outs, job' = some (j, outs) → outs = List.range' s.fresh j.size ∧ Job.Ok j ∧ ∀ c ∈ j.ins, CState.Uses s c ∨ c ≤ 1 := by
          cases job' with
          | none =>
            obtain ⟨e1, e2, e3⟩ := hsim
            refine ⟨?_, ?_, by intro j outs h; cases h⟩
            · have e1' : parasol.exec i (i.srcs.map (CState.archOf μ s).reg) (CState.archOf μ s).mem = .ok (rs.map (CReg.plainOf μ), bview μ m') := by
                rw [← hmap]; exact e1
              have ea : parasol.access i ((parasol.srcs i).map (CState.archOf μ s).reg) = .ok l := by
                rw [hmap] at hac; exact hac
              simp only [Seq.effect, ea]
              rw [show parasol.srcs i = i.srcs from rfl, e1']
              simp only [after]
              rw [← hs1]
              refine congrArg Except.ok ?_
              simp only [CState.archOf, Seq.Arch.mk.injEq, and_true]
              exact ⟨funext fun r => (writeRegs_sim s.reg rs i.dsts 0 s.reg r).symm, rfl⟩
            · intro c hc
              left
              rcases hc with ⟨r, cs, hr, hcc⟩ | ⟨a, cs, ha, hcc⟩
              · have : c ∈ regCells (writeRegs s.reg rs 0 i.dsts r) := by rw [← hreg, hr]; exact hcc
                rcases writeRegs_mem this with h | ⟨o, ho, h⟩
                · exact Or.inl (uses_reg h)
                · exact e2 o ho c h
              · rw [hmem] at ha; exact e3 a cs ha c hcc
          | some jo =>
            obtain ⟨j, outs⟩ := jo
            obtain ⟨rfl, e2, e3, e4, e5, e6⟩ := hsim
            have hbl := bits_length (μ := μ) e3
            have hupd : outs.map (upd μ s.fresh (Job.bits μ j)) = Job.bits μ j := by
              rw [e2, ← hbl]; exact upd_new
            have e1 := e6 _ hupd
            refine ⟨?_, ?_, by intro j' outs' h; cases h; exact ⟨e2, e3, e4⟩⟩
            · have e1' : parasol.exec i (i.srcs.map (CState.archOf μ s).reg) (CState.archOf μ s).mem = .ok (rs.map (CReg.plainOf (upd μ s.fresh (Job.bits μ j))), bview μ s.mem) := by
                rw [← hmap]; exact e1
              have ea : parasol.access i ((parasol.srcs i).map (CState.archOf μ s).reg) = .ok l := by
                rw [hmap] at hac; exact hac
              have hag : CState.archOf μ s = CState.archOf (upd μ s.fresh (Job.bits μ j)) s := archOf_congr fun c hc => (upd_old (hu c hc)).symm
              simp only [Seq.effect, ea]
              rw [show parasol.srcs i = i.srcs from rfl, e1']
              simp only [after]
              rw [hag, ← hs1]
              refine congrArg Except.ok ?_
              simp only [CState.archOf, Seq.Arch.mk.injEq, and_true]
              refine ⟨funext fun r => (writeRegs_sim s.reg rs i.dsts 0 s.reg r).symm, ?_⟩
              exact congrArg Seq.Arch.mem hag
            · intro c hc
              rcases hc with ⟨r, cs, hr, hcc⟩ | ⟨a, cs, ha, hcc⟩
              · have : c ∈ regCells (writeRegs s.reg rs 0 i.dsts r) := by rw [← hreg, hr]; exact hcc
                rcases writeRegs_mem this with h | ⟨o, ho, h⟩
                · exact Or.inl (Or.inl (uses_reg h))
                · exact Or.inr ⟨j, outs, rfl, e5 o ho c h⟩
              · rw [hmem] at ha; exact Or.inl (Or.inl (Or.inr ⟨a, cs, ha, hcc⟩))
        obtain ⟨f1, f2, f3⟩ := heff
        have hnext : parasol.next i (CState.archOf μ s).pc ((parasol.srcs i).map (CState.archOf μ s).reg) = i.next s.pc ((i.srcs.map s.reg).map (CReg.plainOf μ)) := by
          rw [hmap]; rfl
        have hprog : prog (CState.archOf μ s).pc = .ok i := hp
        simp only [Seq.step, hprog, f1, hnext]
        cases hn : i.next s.pc ((i.srcs.map s.reg).map (CReg.plainOf μ)) with
        | ok pc' =>
          rw [hn] at h
          simp only [Except.ok.injEq, Prod.mk.injEq] at h
          obtain ⟨rfl, rfl, rfl⟩ := h
          subst hs1
          exact ⟨rfl, f2, rfl, f3⟩
        | error e =>
          rw [hn] at h
          cases e <;> simp only [Except.ok.injEq, Prod.mk.injEq, reduceCtorEq] at h
          obtain ⟨rfl, rfl, rfl⟩ := h
          exact ⟨rfl, f2, hfr, f3⟩

theorem exec_err (h0 : μ 0 = false) (h1 : μ 1 = true) {i : Inst} {vs : List CReg} {m : CView} {fresh : Nat} {e : Err} (h : exec i vs m fresh = .error e) :
    i.exec (vs.map (CReg.plainOf μ)) (bview μ m) = .error e := by
  have general : (match alu i vs with
      | .error e => .error e
      | .ok (.done rs) => .ok (none, rs, m)
      | .ok (.spawn job rs) => .ok (some (job, List.range' fresh job.size), rs (List.range' fresh job.size), m) : Except Err (Option (Job × List Nat) × List CReg × CView)) = .error e →
      (∀ vs' : List Reg, ∀ m' : View, i.exec vs' m' = (match i.alu vs' with | .error e => .error e | .ok o => .ok (o, m'))) →
      i.exec (vs.map (CReg.plainOf μ)) (bview μ m) = .error e := by
    intro h hex
    have hs := alu_sim (S := fun _ => True) h0 h1 trivial trivial i (vs := vs) (fun _ _ _ _ => trivial)
    cases ha : alu i vs with
    | error e' => rw [ha] at h hs; cases h; rw [hex, hs]
    | ok act => rw [ha] at h; cases act <;> cases h
  unfold exec at h
  cases hop : i.op
  case load =>
    rw [hop] at h
    simp only [span_shape (μ := μ)] at h
    cases hsp : span (vs.map (CReg.plainOf μ)) (i.nat 2) (i.arg 3) with
    | error e' => rw [hsp] at h; cases h; simp only [Inst.exec, hop, hsp]
    | ok l =>
      rw [hsp] at h
      simp only at h
      cases hl : loadReg m (i.nat 2) l with
      | error e' => rw [hl] at h; cases h; simp only [Inst.exec, hop, hsp, loadReg_sim, hl]
      | ok r => rw [hl] at h; cases h
  case store =>
    rw [hop] at h
    simp only [span_shape (μ := μ)] at h
    by_cases hd : i.nat 0 = i.nat 1
    · rw [if_pos hd] at h; cases h; simp only [Inst.exec, hop, if_pos hd]
    rw [if_neg hd] at h
    cases hsp : span (vs.map (CReg.plainOf μ)) (i.nat 2) (i.arg 3) with
    | error e' => rw [hsp] at h; cases h; simp only [Inst.exec, hop, if_neg hd, hsp]
    | ok l =>
      rw [hsp] at h
      simp only at h
      have hg : (vs.map (CReg.plainOf μ)).getD 1 Reg.default = CReg.plainOf μ (vs.getD 1 .default) := by
        simp only [List.getD_eq_getElem?_getD, List.getElem?_map]
        cases vs[1]? <;> rfl
      cases hl : storeBytes (vs.getD 1 .default) l 0 m with
      | error e' => rw [hl] at h; cases h; simp only [Inst.exec, hop, if_neg hd, hsp, hg, storeBytes_sim, hl]
      | ok m1 => rw [hl] at h; cases h
  all_goals
    rw [hop] at h
    exact general h (fun vs' m' => by simp only [Inst.exec, hop]; cases i.alu vs' <;> rfl)

/-- A step that fails on ciphertexts fails in the clear. -/
theorem step_err (h0 : μ 0 = false) (h1 : μ 1 = true) {prog : Nat → Except Err Inst} {s : CState} {e : Err} (h : step prog s = .error e) :
    Seq.step parasol prog (CState.archOf μ s) = .error e := by
  unfold step at h
  have hpc : (CState.archOf μ s).pc = s.pc := rfl
  cases hp : prog s.pc with
  | error e' => rw [hp] at h; cases h; simp only [Seq.step, hpc, hp]
  | ok i =>
    rw [hp] at h
    have hmap : (i.srcs.map s.reg).map (CReg.plainOf μ) = i.srcs.map (CState.archOf μ s).reg := by rw [List.map_map]; rfl
    simp only [access_shape (μ := μ), next_shape (μ := μ)] at h
    have hsr : parasol.srcs i = i.srcs := rfl
    have hmm : (CState.archOf μ s).mem = bview μ s.mem := rfl
    cases hac : i.access ((i.srcs.map s.reg).map (CReg.plainOf μ)) with
    | error e' =>
      rw [hac] at h; cases h
      have ea : parasol.access i (i.srcs.map (CState.archOf μ s).reg) = .error e := by rw [← hmap]; exact hac
      simp only [Seq.step, hpc, hp, Seq.effect, hsr, ea]
    | ok l =>
      rw [hac] at h
      simp only at h
      have ea : parasol.access i (i.srcs.map (CState.archOf μ s).reg) = .ok l := by rw [← hmap]; exact hac
      cases hex : exec i (i.srcs.map s.reg) s.mem s.fresh with
      | error e' =>
        rw [hex] at h; cases h
        have ee : parasol.exec i (i.srcs.map (CState.archOf μ s).reg) (bview μ s.mem) = .error e := by rw [← hmap]; exact exec_err h0 h1 hex
        simp only [Seq.step, hpc, hp, Seq.effect, hsr, ea, hmm, ee]
      | ok res =>
        obtain ⟨job', rs, m'⟩ := res
        rw [hex] at h
        simp only at h
        have hsim := exec_sim (μ := μ) (S := fun _ => True) h0 h1 trivial trivial (vs := i.srcs.map s.reg) (m := s.mem) (fun _ _ _ _ => trivial) (fun _ _ _ _ _ => trivial) hex
        have hok : ∃ r, parasol.exec i (i.srcs.map (CState.archOf μ s).reg) (bview μ s.mem) = .ok r := by
          rw [← hmap]
          cases job' with
          | none => exact ⟨_, hsim.1⟩
          | some jo =>
            obtain ⟨j, outs⟩ := jo
            obtain ⟨_, e2, e3, _, _, e6⟩ := hsim
            have hbl := bits_length (μ := μ) e3
            have hupd : outs.map (upd μ s.fresh (Job.bits μ j)) = Job.bits μ j := by
              rw [e2, ← hbl]; exact upd_new
            exact ⟨_, e6 _ hupd⟩
        obtain ⟨⟨o, mm⟩, hok⟩ := hok
        have en : parasol.next i s.pc (i.srcs.map (CState.archOf μ s).reg) = i.next s.pc ((i.srcs.map s.reg).map (CReg.plainOf μ)) := by rw [hmap]; rfl
        cases hn : i.next s.pc ((i.srcs.map s.reg).map (CReg.plainOf μ)) with
        | ok pc' => rw [hn] at h; cases h
        | error e' =>
          rw [hn] at h
          simp only [Seq.step, hpc, hp, Seq.effect, hsr, ea, hmm, hok, en, hn]
          cases e' <;> first | (cases h; rfl) | cases h

section
variable {W n v : Nat} {P : EvalParams} {ν : NoiseLevels} {sb : List Bool} {sk : List (List (BitVec W))} {K : EvalKey W}

theorem holds_mono (hP : ParamsOk W n v P) (hsk : KeyFor sk P.glweSize (2 ^ n)) {s : List (BitVec W)} {B B' : Nat} (hB : B ≤ B') {c : Ct W} {b : Bool}
    (h : CtHolds P s sk B c (ctOf .glwe1 b)) : CtHolds P s sk B' c (ctOf .glwe1 b) := by
  rw [holds_iff hP hsk] at h ⊢
  cases c <;> simp only [ctOf, Held] at h ⊢ <;> try exact h
  exact ⟨h.1, h.2.mono hB⟩

/-- **Running the circuit of a job.** -/
theorem job_run (hs : SecretOk P n ν sb sk) (hK : Setting W n v P sb sk ν K) {err : FheOp → List (Ct W × FheEdge) → OpErr W} (he : ∀ op ins, ErrOk P n ν.fft (err op ins))
    {G : Gens} (hG : GensOk G) {job : Job} (hok : Job.Ok job) {outs : List Nat} (hlen : outs.length = job.size) (hnd : outs.Nodup) (hdis : ∀ c ∈ job.ins, c ∉ outs)
    {nz : Nat → Nat} {cells : CtType × Nat → Ct W} (hin : ∀ c ∈ job.ins, CtHolds P (bitKey W sb) sk (nz c) (cells (.glwe1, c)) (ctOf .glwe1 (μ c))) {B : Nat}
    (hB : Job.noise W P ν nz job = some B) :
    ∃ g, job.build G outs = some g ∧ RunsTo P K err g cells fun cells' =>
      (∀ (i : Nat) o b, outs[i]? = some o → (Job.bits μ job)[i]? = some b → CtHolds P (bitKey W sb) sk B (cells' (.glwe1, o)) (ctOf .glwe1 b)) ∧
      ∀ c, c ∉ outs → cells' (.glwe1, c) = cells (.glwe1, c) := by
  have hdeg : 0 < P.degree := by rw [hK.params.degree]; exact Nat.two_pow_pos n
  obtain ⟨g, e1, e2⟩ := build_ok (d := P.degree) (cells := fun t c => ctOf t (μ c)) (W := W) (P := P) (ν := ν) (nz := fun _ => nz) hG hdeg hok hlen hnd (μ := μ) (fun _ _ => rfl) hB
  refine ⟨g, e1, RunsTo.mono (run_holds_frame hs hK he e2.live e2.good e2.outsIn (by
      intro p hp hp'
      obtain ⟨c, hc, rfl⟩ := List.mem_map.1 hp
      obtain ⟨c', hc', h⟩ := List.mem_map.1 hp'
      simp only [Prod.mk.injEq, true_and] at h
      exact hdis c hc (h ▸ hc')) (vals := fun t c => ctOf t (μ c)) (nz := fun _ => nz) (fun p _ => ctOf_type _ _) (by
      intro p hp
      obtain ⟨c, hc, rfl⟩ := List.mem_map.1 hp
      exact hin c hc) e2.all) ?_⟩
  intro cells' h
  have hty : typed (fun t c => ctOf t (μ c)) = fun t c => ctOf t (μ c) := by
    funext t c; exact typed_eq (ctOf_type _ _)
  rw [hty] at h
  refine ⟨fun i o b ho hb => ?_, fun c hc => h.2 _ _ ?_⟩
  · obtain ⟨B', q, hh⟩ := h.1 .glwe1 o _ (e2.writes i o b ho hb)
    exact holds_mono hK.params hs.key (q _ _ rfl) hh
  · intro hm
    obtain ⟨c', hc', h⟩ := List.mem_map.1 hm
    simp only [Prod.mk.injEq, true_and] at h
    exact hc (h ▸ hc')

/-- **Running a program.** -/
theorem prog_run (hs : SecretOk P n ν sb sk) (hK : Setting W n v P sb sk ν K) {err : FheOp → List (Ct W × FheEdge) → OpErr W} (he : ∀ op ins, ErrOk P n ν.fft (err op ins))
    {G : Gens} (hG : GensOk G) {prog : Nat → Except Err Inst} : ∀ (k : Nat) {s sf : CState} {μ : Nat → Bool} {nz nz' : Nat → Nat}, 2 ≤ s.fresh → (∀ c, CState.Uses s c → c < s.fresh) →
    μ 0 = false → μ 1 = true → noiseRun W P ν prog k s nz = some (sf, nz') →
    ∃ μf, Seq.Returns parasol prog k (CState.archOf μ s) (CState.archOf μf sf) ∧ ∀ cells : CtType × Nat → Ct W,
      (∀ c, CState.Uses s c ∨ c ≤ 1 → CtHolds P (bitKey W sb) sk (nz c) (cells (.glwe1, c)) (ctOf .glwe1 (μ c))) →
      RunsProg G P K err prog k s cells fun s' cells' => s' = sf ∧ ∀ c, CState.Uses sf c → CtHolds P (bitKey W sb) sk (nz' c) (cells' (.glwe1, c)) (ctOf .glwe1 (μf c))
  | 0, s, sf, μ, nz, nz', _, _, _, _, h => by simp [noiseRun] at h
  | k + 1, s, sf, μ, nz, nz', hf, hu, h0, h1, h => by
    rw [noiseRun] at h
    cases hst : step prog s with
    | error e => rw [hst] at h; cases h
    | ok res =>
      obtain ⟨job, s', halted⟩ := res
      rw [hst] at h
      obtain ⟨f1, f2, f3, f4⟩ := step_sim h0 h1 hf hu hst
      cases job with
      | none =>
        simp only at h
        cases halted with
        | true =>
          simp only [if_true] at h
          by_cases hk : k = 0
          · rw [if_pos hk] at h; cases h
            refine ⟨μ, ?_, fun cells hc => ?_⟩
            · simp only [Seq.Returns, f1]; exact ⟨hk, rfl⟩
            · simp only [RunsProg, hst, if_true]
              refine ⟨hk, trivial, fun c hcu => ?_⟩
              rcases f2 c hcu with h | ⟨j, outs, h, _⟩
              · exact hc c h
              · cases h
          · rw [if_neg hk] at h; cases h
        | false =>
          simp only [Bool.false_eq_true, if_false] at h
          have hu' : ∀ c, CState.Uses s' c → c < s'.fresh := by
            intro c hcu
            rw [f3]
            rcases f2 c hcu with (h | h) | ⟨j, outs, h, _⟩
            · have := hu c h; simp only [allocated]; omega
            · simp only [allocated]; omega
            · cases h
          obtain ⟨μf, r1, r2⟩ := prog_run hs hK he hG k (s := s') (μ := μ) (by rw [f3]; omega) hu' h0 h1 h
          refine ⟨μf, ?_, fun cells hc => ?_⟩
          · simp only [Seq.Returns, f1]; exact r1
          · simp only [RunsProg, hst, Bool.false_eq_true, if_false]
            refine r2 cells fun c hcu => hc c ?_
            rcases hcu with hcu | h
            · rcases f2 c hcu with h | ⟨j, outs, h, _⟩
              · exact h
              · cases h
            · exact Or.inr h
      | some jo =>
        obtain ⟨j, outs⟩ := jo
        obtain ⟨o1, o2, o3⟩ := f4 j outs rfl
        simp only at h
        cases hB : Job.noise W P ν nz j with
        | none => rw [hB] at h; cases h
        | some B =>
          rw [hB] at h
          simp only at h
          have hlen : outs.length = j.size := by rw [o1]; exact List.length_range'
          have hbl := bits_length (μ := μ) o2
          have hnd : outs.Nodup := by rw [o1]; exact List.nodup_range'
          have hnew : ∀ c ∈ outs, s.fresh ≤ c := by
            intro c hc; rw [o1] at hc; obtain ⟨i, _, rfl⟩ := List.mem_range'.1 hc; omega
          have hold : ∀ c, CState.Uses s c ∨ c ≤ 1 → c < s.fresh := by
            rintro c (h | h)
            · exact hu c h
            · omega
          have hdis : ∀ c ∈ j.ins, c ∉ outs := by
            intro c hc hco
            have := hnew c hco
            have := hold c (o3 c hc)
            omega
          have hrun : ∀ cells : CtType × Nat → Ct W, (∀ c, CState.Uses s c ∨ c ≤ 1 → CtHolds P (bitKey W sb) sk (nz c) (cells (.glwe1, c)) (ctOf .glwe1 (μ c))) →
              ∃ g, j.build G outs = some g ∧ RunsTo P K err g cells fun cells' => ∀ c, (CState.Uses s c ∨ c ≤ 1) ∨ c ∈ outs →
                CtHolds P (bitKey W sb) sk (if c ∈ outs then B else nz c) (cells' (.glwe1, c)) (ctOf .glwe1 (upd μ s.fresh (Job.bits μ j) c)) := by
            intro cells hc
            obtain ⟨g, g1, g2⟩ := job_run hs hK he hG o2 hlen hnd hdis (fun c hcc => hc c (o3 c hcc)) hB
            refine ⟨g, g1, RunsTo.mono g2 fun cells' hh c hcc => ?_⟩
            by_cases hco : c ∈ outs
            · rw [if_pos hco]
              have hc2 := hnew c hco
              rw [o1] at hco
              obtain ⟨i, hi, rfl⟩ := List.mem_range'.1 hco
              have : upd μ s.fresh (Job.bits μ j) (s.fresh + 1 * i) = (Job.bits μ j)[i]'(by omega) := by
                simp only [upd]
                rw [if_neg (by omega)]
                simp [List.getD_eq_getElem?_getD, List.getElem?_eq_getElem (show i < (Job.bits μ j).length by omega)]
              rw [this]
              refine hh.1 i _ _ ?_ (List.getElem?_eq_getElem (by omega))
              rw [o1, List.getElem?_range' hi]
            · rw [if_neg hco]
              have hc3 := hcc.resolve_right hco
              rw [upd_old (hold c hc3), hh.2 c hco]
              exact hc c hc3
          have hs'' : ∀ c, CState.Uses s' c → (CState.Uses s c ∨ c ≤ 1) ∨ c ∈ outs := by
            intro c hcu
            rcases f2 c hcu with h | ⟨j', outs', h, hco⟩
            · exact Or.inl h
            · cases h; exact Or.inr hco
          cases halted with
          | true =>
            simp only [if_true] at h
            by_cases hk : k = 0
            · rw [if_pos hk] at h; cases h
              refine ⟨upd μ s.fresh (Job.bits μ j), ?_, fun cells hc => ?_⟩
              · simp only [Seq.Returns, f1]; exact ⟨hk, rfl⟩
              · simp only [RunsProg, hst, if_true]
                obtain ⟨g, g1, g2⟩ := hrun cells hc
                exact ⟨g, g1, RunsTo.mono g2 fun cells' hh => ⟨hk, trivial, fun c hcu => hh c (hs'' c hcu)⟩⟩
            · rw [if_neg hk] at h; cases h
          | false =>
            simp only [Bool.false_eq_true, if_false] at h
            have hu' : ∀ c, CState.Uses s' c → c < s'.fresh := by
              intro c hcu
              rw [f3]
              simp only [allocated]
              rcases hs'' c hcu with h | h
              · have := hold c h; omega
              · rw [o1] at h ⊢
                obtain ⟨i, hi, rfl⟩ := List.mem_range'.1 h
                rw [List.length_range']; omega
            obtain ⟨μf, r1, r2⟩ := prog_run hs hK he hG k (s := s') (μ := upd μ s.fresh (Job.bits μ j)) (by rw [f3]; omega) hu'
              (by rw [upd_old (by omega)]; exact h0) (by rw [upd_old (by omega)]; exact h1) h
            refine ⟨μf, ?_, fun cells hc => ?_⟩
            · simp only [Seq.Returns, f1]; exact r1
            · simp only [RunsProg, hst, Bool.false_eq_true, if_false]
              obtain ⟨g, g1, g2⟩ := hrun cells hc
              refine ⟨g, g1, RunsTo.mono g2 fun cells' hh => r2 cells' fun c hcu => hh c ?_⟩
              rcases hcu with hcu | h
              · exact hs'' c hcu
              · exact Or.inl (Or.inr h)
end

end Spf.Cells
