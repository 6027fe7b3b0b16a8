import Verif.Proof.CellSteady
import Verif.Proof.BddCanon
import Verif.Props.Machine
/-! C105: programs of the processor on ciphertexts, end to end. -/
namespace Spf.Props
open Spf.Spec Spf.Cells Spf.Cpu Spf.Fluent Spf.Fhe Spf.CtExec Spf.Tfhe

variable {W : Nat}

theorem holds_reg {P : EvalParams} {s : List (BitVec W)} {sk : List (List (BitVec W))} {nz : Nat → Nat} {μ : Nat → Bool} {cells : CtType × Nat → Ct W} {r : CReg}
    (h : ∀ c ∈ regCells r, CtHolds P s sk (nz c) (cells (.glwe1, c)) (ctOf .glwe1 (μ c))) : HoldsReg P s sk nz cells r (CReg.plainOf μ r) := by
  cases r with
  | plain v w => exact ⟨rfl, rfl⟩
  | cells cs => exact List.forall₂_map_right_iff.2 (List.forall₂_same.2 h)

theorem holds_byte {P : EvalParams} {s : List (BitVec W)} {sk : List (List (BitVec W))} {nz : Nat → Nat} {μ : Nat → Bool} {cells : CtType × Nat → Ct W} {b : Option (Byte Nat)}
    (h : ∀ cs, b = some (.cipher cs) → ∀ c ∈ cs, CtHolds P s sk (nz c) (cells (.glwe1, c)) (ctOf .glwe1 (μ c))) : HoldsByte P s sk nz cells b (b.map (byteOf μ)) := by
  match b, h with
  | none, _ => trivial
  | some (.plain v), _ => exact rfl
  | some (.cipher cs), h => exact List.forall₂_map_right_iff.2 (List.forall₂_same.2 (h cs rfl))

theorem decrypts_reg {P : EvalParams} {s : List (BitVec W)} {sk : List (List (BitVec W))} {μ : Nat → Bool} {cells : CtType × Nat → Ct W} {r : CReg}
    (h : ∀ c ∈ regCells r, CtDecrypts P s sk (cells (.glwe1, c)) (ctOf .glwe1 (μ c))) : DecryptsReg P s sk cells r (CReg.plainOf μ r) := by
  cases r with
  | plain v w => exact ⟨rfl, rfl⟩
  | cells cs => exact List.forall₂_map_right_iff.2 (List.forall₂_same.2 h)

theorem decrypts_byte {P : EvalParams} {s : List (BitVec W)} {sk : List (List (BitVec W))} {μ : Nat → Bool} {cells : CtType × Nat → Ct W} {b : Option (Byte Nat)}
    (h : ∀ cs, b = some (.cipher cs) → ∀ c ∈ cs, CtDecrypts P s sk (cells (.glwe1, c)) (ctOf .glwe1 (μ c))) : DecryptsByte P s sk cells b (b.map (byteOf μ)) := by
  match b, h with
  | none, _ => trivial
  | some (.plain v), _ => exact rfl
  | some (.cipher cs), h => exact List.forall₂_map_right_iff.2 (List.forall₂_same.2 (h cs rfl))

theorem RunsProg_mono {G : Gens} {P : EvalParams} {K : EvalKey W} {err : FheOp → List (Ct W × FheEdge) → OpErr W} {prog : Nat → Except Err Inst}
    {post post' : CState → (CtType × Nat → Ct W) → Prop} (hp : ∀ s cells, post s cells → post' s cells) : ∀ (k : Nat) {s : CState} {cells : CtType × Nat → Ct W},
    RunsProg G P K err prog k s cells post → RunsProg G P K err prog k s cells post'
  | 0, _, _, h => h
  | k + 1, s, cells, h => by
    unfold RunsProg at h ⊢
    cases hst : step prog s with
    | error e => rw [hst] at h; exact h
    | ok res =>
      obtain ⟨job, s', halted⟩ := res
      rw [hst] at h
      have hrest : ∀ cells', (if halted = true then k = 0 ∧ post s' cells' else RunsProg G P K err prog k s' cells' post) →
          if halted = true then k = 0 ∧ post' s' cells' else RunsProg G P K err prog k s' cells' post' := by
        intro cells' h
        cases halted with
        | true => exact ⟨h.1, hp _ _ h.2⟩
        | false => exact RunsProg_mono hp k h
      cases job with
      | none => exact hrest _ h
      | some j =>
        obtain ⟨g, h1, h2⟩ := h
        exact ⟨g, h1, RunsTo.mono h2 hrest⟩

/-- **C105.** Client and server generate keys. A program is started on ciphertexts that encrypt some bits, up to the noise `nz`. If the noise
analysis `noiseRun`, which sees neither keys nor bits, accepts `k` instructions of the program, then the program run in the clear returns after `k` instructions,
in some state `b`; and the program run on the ciphertexts builds all its circuits, every run of each succeeds whatever the number of workers and the schedule, it returns after `k`
instructions in the state the analysis predicts, and its registers and memory then hold encryptions of `b`, with the noise computed by the analysis; where this is below a quarter
of the torus, the client decrypts them to `b`. Circuits of independent instructions in flight at the same time are C106. -/
theorem C105_program {n v : Nat} {P : EvalParams} (hP : ParamsOk W n v P) {ν : NoiseLevels} {s : List Bool} {sk : List (List (BitVec W))} (hs : SecretOk P n ν s sk)
    (checked : Bool) {D : KeyDraws W} (hD : DrawsOk P n ν D) :
    ∃ K, computeKeyGen checked P (bitKey W s) sk D = some K ∧ ∀ err : FheOp → List (Ct W × FheEdge) → OpErr W, (∀ op ins, ErrOk P n ν.fft (err op ins)) →
      ∀ G : Gens, GensOk G → ∀ (prog : Nat → Except Err Inst) (k : Nat) (s₀ s₁ : CState) (μ : Nat → Bool) (nz nz' : Nat → Nat),
        2 ≤ s₀.fresh → (∀ c, CState.Uses s₀ c → c < s₀.fresh) → μ 0 = false → μ 1 = true → noiseRun W P ν prog k s₀ nz = some (s₁, nz') →
        ∃ b, Seq.Returns parasol prog k (CState.archOf μ s₀) b ∧ ∀ cells : CtType × Nat → Ct W,
          (∀ c, CState.Uses s₀ c ∨ c ≤ 1 → CtHolds P (bitKey W s) sk (nz c) (cells (.glwe1, c)) (ctOf .glwe1 (μ c))) →
          RunsProg G P K err prog k s₀ cells fun s' cells' => s' = s₁ ∧
            (∀ r, HoldsReg P (bitKey W s) sk nz' cells' (s₁.reg r) (b.reg r)) ∧ (∀ a, HoldsByte P (bitKey W s) sk nz' cells' (s₁.mem a) (b.mem a)) ∧
            (∀ r, (∀ cs, s₁.reg r = .cells cs → ∀ c ∈ cs, nz' c < 2 ^ (W - 2)) → DecryptsReg P (bitKey W s) sk cells' (s₁.reg r) (b.reg r)) ∧
            ∀ a, (∀ cs, s₁.mem a = some (.cipher cs) → ∀ c ∈ cs, nz' c < 2 ^ (W - 2)) → DecryptsByte P (bitKey W s) sk cells' (s₁.mem a) (b.mem a) := by
  obtain ⟨K, k1, k2⟩ := keygen_ok hP hs checked hD
  refine ⟨K, k1, fun err he G hG prog k s₀ s₁ μ nz nz' hf hu h0 h1 hrun => ?_⟩
  obtain ⟨μf, r1, r2⟩ := prog_run hs k2 he hG k hf hu h0 h1 hrun
  refine ⟨CState.archOf μf s₁, r1, fun cells hc => RunsProg_mono ?_ k (r2 cells hc)⟩
  rintro s' cells' ⟨rfl, h⟩
  have hd : ∀ c, CState.Uses s' c → nz' c < 2 ^ (W - 2) → CtDecrypts P (bitKey W s) sk (cells' (.glwe1, c)) (ctOf .glwe1 (μf c)) := fun c hc hq =>
    held_decrypts hP hs ((holds_iff hP hs.key _ _).1 (h c hc)) hq
  refine ⟨rfl, fun r => holds_reg fun c hc => h c (uses_reg hc), fun a => holds_byte fun cs ha c hc => h c (Or.inr ⟨a, cs, ha, hc⟩), fun r hq => ?_, fun a hq => ?_⟩
  · refine decrypts_reg fun c hc => hd c (uses_reg hc) ?_
    cases hr : s'.reg r with
    | plain x w => rw [hr] at hc; cases hc
    | cells cs => rw [hr] at hc; exact hq cs hr c hc
  · exact decrypts_byte fun cs ha c hc => hd c (Or.inr ⟨a, cs, ha, hc⟩) (hq cs ha c hc)

theorem Returns_unique {prog : Nat → Except Err Inst} : ∀ (k : Nat) {a b b' : Seq.Arch Reg Nat (Option (Byte Bool))}, Seq.Returns parasol prog k a b → Seq.Returns parasol prog k a b' → b = b'
  | 0, _, _, _, h, _ => absurd h id
  | k + 1, a, b, b', h, h' => by
    simp only [Seq.Returns] at h h'
    cases hst : Seq.step parasol prog a with
    | error e => rw [hst] at h; exact absurd h id
    | ok r =>
      obtain ⟨a', halted⟩ := r
      rw [hst] at h h'
      cases halted with
      | true => exact h.2.trans h'.2.symm
      | false => exact Returns_unique k h h'

/-- **C105, programs of any length.** Take a program of steady instructions (no exclusive or, `cmux` or shift; multiplication only if `mul`), and `N` at least the noise of their deepest circuit and below the
bootstrapping limit after a keyswitch. Started on ciphertexts of noise at most `N` it does on ciphertexts what it does in the clear, however many instructions it runs: if it returns in the clear then it returns on ciphertexts,
all runs of all its circuits succeed, and the client decrypts all registers and all memory. -/
theorem C105_any_length {n v : Nat} {P : EvalParams} (hP : ParamsOk W n v P) {ν : NoiseLevels} {s : List Bool} {sk : List (List (BitVec W))} (hs : SecretOk P n ν s sk)
    (checked : Bool) {D : KeyDraws W} (hD : DrawsOk P n ν D) {mul : Bool} {N : Nat} (hN : steadyNoise W P ν mul ≤ N) (hb : N + ksNoise W P ν < bootLimit W P ν) :
    ∃ K, computeKeyGen checked P (bitKey W s) sk D = some K ∧ ∀ err : FheOp → List (Ct W × FheEdge) → OpErr W, (∀ op ins, ErrOk P n ν.fft (err op ins)) →
      ∀ G : Gens, GensOk G → ∀ prog : Nat → Except Err Inst, (∀ pc i, prog pc = .ok i → Steady mul i) → ∀ (k : Nat) (s₀ : CState) (μ : Nat → Bool) (b : Seq.Arch Reg Nat (Option (Byte Bool))),
        2 ≤ s₀.fresh → (∀ c, CState.Uses s₀ c → c < s₀.fresh) → μ 0 = false → μ 1 = true → Seq.Returns parasol prog k (CState.archOf μ s₀) b →
        ∀ cells : CtType × Nat → Ct W, (∀ c, CState.Uses s₀ c ∨ c ≤ 1 → CtHolds P (bitKey W s) sk N (cells (.glwe1, c)) (ctOf .glwe1 (μ c))) →
          RunsProg G P K err prog k s₀ cells fun s' cells' =>
            (∀ r, DecryptsReg P (bitKey W s) sk cells' (s'.reg r) (b.reg r)) ∧ ∀ a, DecryptsByte P (bitKey W s) sk cells' (s'.mem a) (b.mem a) := by
  obtain ⟨K, k1, k2⟩ := C105_program hP hs checked hD
  refine ⟨K, k1, fun err he G hG prog hp k s₀ μ b hf hu h0 h1 hret cells hc => ?_⟩
  obtain ⟨s₁, nz', e1, e2⟩ := steady_run hN hb hp k (nz := fun _ => N) hf hu h0 h1 (fun _ => Nat.le_refl _) hret
  obtain ⟨b', r1, r2⟩ := k2 err he G hG prog k s₀ s₁ μ _ nz' hf hu h0 h1 e1
  have hlt : ∀ c, nz' c < 2 ^ (W - 2) := by
    intro c
    have := e2 c
    have h2 : bootLimit W P ν ≤ 2 ^ (W - 2) := Nat.sub_le _ _
    omega
  rw [Returns_unique k hret r1]
  refine RunsProg_mono ?_ k (r2 cells hc)
  rintro s' cells' ⟨rfl, _, _, h3, h4⟩
  exact ⟨fun r => h3 r fun _ _ c _ => hlt c, fun a => h4 a fun _ _ c _ => hlt c⟩

/-- **C105, faults.** An instruction that fails on ciphertexts fails with the same error in the clear, whatever the
encrypted bits are: the error depends only on plaintexts and widths. -/
theorem C105_faults {prog : Nat → Except Err Inst} {s : CState} {e : Err} (h : step prog s = .error e) (μ : Nat → Bool) (h0 : μ 0 = false) (h1 : μ 1 = true) :
    Seq.step parasol prog (CState.archOf μ s) = .error e := step_err h0 h1 h

/-! ### a concrete case -/

/-- canonical decision diagrams; the circuits of products, optimised; the hash map is iterated backwards -/
def exGens : Gens := { lib := canonLib, circ := fun nv fs => if fs = [] then none else optCircuitOf canonLib nv fs, order := List.reverse }

theorem exGens_ok : GensOk exGens := by
  have h : ∀ nv (fs : List BddFn), fs ≠ [] → CircOk exGens.circ nv fs := by
    intro nv fs hfs
    obtain ⟨mc, fs', h1, h2, h3, h4, h5, h6, _⟩ := gen_ok canonLib_ok true nv hfs
    refine ⟨mc, fs', ?_, h2, h3, h4, h5, h6⟩
    rw [if_pos rfl] at h1
    simp only [exGens, if_neg hfs, h1]
  refine ⟨canonLib_ok, ⟨fun _ _ _ _ h' => h _ _ h', fun _ _ _ _ h' => h _ _ h', fun _ _ _ h' => h _ _ h', fun _ _ _ h' => h _ _ h'⟩, fun nv fs c hc => ?_, fun l => List.reverse_perm l⟩
  simp only [exGens] at hc
  by_cases hfs : fs = []
  · rw [if_pos hfs] at hc; cases hc
  · rw [if_neg hfs] at hc
    obtain ⟨mc, fs', h1, _, _, _, _, _, h7⟩ := gen_ok canonLib_ok true nv hfs
    rw [if_pos rfl, hc] at h1
    cases h1; exact h7

/-- the larger of the sum and the second operand: r2 = r0 + r1, r3 = r2 > r1, r4 = r3 ? r2 : r1 -/
def exCellProg : List Inst := [⟨.add, [2, 0, 1]⟩, ⟨.cmpGt, [3, 2, 1]⟩, ⟨.cmux, [4, 3, 2, 1]⟩, ⟨.ret, []⟩]

/-- two encrypted bytes, in the registers 0 and 1 -/
def exCellStart : CState :=
  { reg := fun r => if r = 0 then .cells (List.range' 2 8) else if r = 1 then .cells (List.range' 10 8) else .default, mem := fun _ => none, pc := 0, fresh := 18 }

/-- what the analysis of `exCellProg` yields -/
theorem exCell_noise : ((noiseRun 64 exCtParams exCtLevels (code exCellProg) 4 exCellStart fun _ => 1000).map fun r =>
    (r.1.reg 4, (List.range' 28 8).all fun c => decide (r.2 c < 2 ^ 62))) = some (.cells (List.range' 28 8), true) := by decide +kernel

example (err : FheOp → List (Ct 64 × FheEdge) → OpErr 64) (he : ∀ op ins, ErrOk exCtParams 4 exCtLevels.fft (err op ins)) (μ : Nat → Bool) (h0 : μ 0 = false) (h1 : μ 1 = true) :
    ∃ K b, computeKeyGen true exCtParams (bitKey 64 [true, true]) exCtSk exCtDraws = some K ∧ Seq.Returns parasol (code exCellProg) 4 (CState.archOf μ exCellStart) b ∧
      ∀ cells : CtType × Nat → Ct 64,
        (∀ c, CtEncrypts exCtParams (bitKey 64 [true, true]) exCtSk 1000 (ctOf .glwe1 (μ c)) (cells (.glwe1, c))) →
        RunsProg exGens exCtParams K err (code exCellProg) 4 exCellStart cells fun _ cells' =>
          DecryptsReg exCtParams (bitKey 64 [true, true]) exCtSk cells' (.cells (List.range' 28 8)) (b.reg 4) := by
  obtain ⟨K, k1, k2⟩ := C105_program exCtParams_ok exCtSecret_ok true exCtDraws_ok
  have hn := exCell_noise
  cases hr : noiseRun 64 exCtParams exCtLevels (code exCellProg) 4 exCellStart fun _ => 1000 with
  | none => rw [hr] at hn; cases hn
  | some r =>
    obtain ⟨s₁, nz'⟩ := r
    rw [hr] at hn
    simp only [Option.map_some, Option.some.injEq, Prod.mk.injEq] at hn
    obtain ⟨hr4, hq⟩ := hn
    have hu : ∀ c, CState.Uses exCellStart c → c < exCellStart.fresh := by
      rintro c (⟨r, cs, h, hc⟩ | ⟨a, cs, h, hc⟩)
      · simp only [exCellStart] at h
        split at h
        · cases h; simp [List.mem_range'] at hc; simp only [exCellStart]; omega
        · split at h
          · cases h; simp [List.mem_range'] at hc; simp only [exCellStart]; omega
          · cases h
      · cases h
    obtain ⟨b, b1, b2⟩ := k2 err he exGens exGens_ok (code exCellProg) 4 exCellStart s₁ μ _ nz' (by decide) hu h0 h1 hr
    refine ⟨K, b, k1, b1, fun cells hc => RunsProg_mono ?_ 4 (b2 cells fun c _ => ?_)⟩
    · rintro s' cells' ⟨_, _, _, h4, _⟩
      rw [← hr4]
      refine h4 4 fun cs hcs c hc => ?_
      rw [hr4] at hcs; cases hcs
      have := List.all_eq_true.1 hq c hc
      simpa using this
    · exact (holds_iff exCtParams_ok exCtSecret_ok.key _ _).2 (encrypts_held exCtParams_ok exCtSecret_ok (hc c))

/-- the noise of circuits without multiplication is below the bootstrapping limit for these parameters -/
theorem exSteady_limits : steadyNoise 64 exCtParams exCtLevels false ≤ 10 ^ 18 ∧ 10 ^ 18 + ksNoise 64 exCtParams exCtLevels < bootLimit 64 exCtParams exCtLevels := by decide +kernel

/-- a loop: add register 1 to register 0, as many times as register 2 (in the clear) says -/
def exSteady : List Inst := [⟨.add, [0, 0, 1]⟩, ⟨.sub, [2, 2, 3]⟩, ⟨.branchNonZero, [2, -16]⟩, ⟨.ret, []⟩]

/-- two encrypted bytes, five iterations -/
def exSteadyStart : CState :=
  { reg := fun r => if r = 0 then .cells (List.range' 2 8) else if r = 1 then .cells (List.range' 10 8) else if r = 2 then .plain 5 32 else if r = 3 then .plain 1 32 else .default, mem := fun _ => none, pc := 0, fresh := 18 }

theorem exSteady_steady : ∀ pc i, code exSteady pc = .ok i → Steady false i := by
  intro pc i h
  have hm : i ∈ exSteady := by
    unfold code at h
    by_cases ha : pc % 8 = 0
    swap
    · rw [if_pos ha] at h; cases h
    rw [if_neg (by simp [ha])] at h
    cases hg : exSteady[pc / 8]? with
    | none => rw [hg] at h; cases h
    | some j => rw [hg] at h; cases h; exact List.mem_of_getElem? hg
  simp only [exSteady, List.mem_cons, List.not_mem_nil, or_false] at hm
  rcases hm with rfl | rfl | rfl | rfl <;> exact ⟨by decide, by decide⟩

example (err : FheOp → List (Ct 64 × FheEdge) → OpErr 64) (he : ∀ op ins, ErrOk exCtParams 4 exCtLevels.fft (err op ins)) (μ : Nat → Bool) (h0 : μ 0 = false) (h1 : μ 1 = true) :
    ∃ K b, computeKeyGen true exCtParams (bitKey 64 [true, true]) exCtSk exCtDraws = some K ∧ Seq.Returns parasol (code exSteady) 16 (CState.archOf μ exSteadyStart) b ∧
      ∀ cells : CtType × Nat → Ct 64,
        (∀ c, CtHolds exCtParams (bitKey 64 [true, true]) exCtSk (10 ^ 18) (cells (.glwe1, c)) (ctOf .glwe1 (μ c))) →
        RunsProg exGens exCtParams K err (code exSteady) 16 exSteadyStart cells fun s' cells' =>
          DecryptsReg exCtParams (bitKey 64 [true, true]) exCtSk cells' (s'.reg 0) (b.reg 0) := by
  obtain ⟨K, k1, k2⟩ := C105_any_length exCtParams_ok exCtSecret_ok true exCtDraws_ok exSteady_limits.1 exSteady_limits.2
  obtain ⟨K', k1', k2'⟩ := C105_program exCtParams_ok exCtSecret_ok true exCtDraws_ok
  have hn : ((noiseRun 64 exCtParams exCtLevels (code exSteady) 16 exSteadyStart fun _ => 1000).map fun r => r.1.reg 0) = some (.cells (List.range' 54 8)) := by decide +kernel
  cases hr : noiseRun 64 exCtParams exCtLevels (code exSteady) 16 exSteadyStart fun _ => 1000 with
  | none => rw [hr] at hn; cases hn
  | some r =>
    obtain ⟨s₁, nz'⟩ := r
    have hu : ∀ c, CState.Uses exSteadyStart c → c < exSteadyStart.fresh := by
      rintro c (⟨r, cs, h, hc⟩ | ⟨a, cs, h, hc⟩)
      · simp only [exSteadyStart] at h
        repeat' split at h
        all_goals first | (cases h; simp [List.mem_range'] at hc; simp only [exSteadyStart]; omega) | cases h
      · cases h
    obtain ⟨b, b1, _⟩ := k2' err he exGens exGens_ok (code exSteady) 16 exSteadyStart s₁ μ _ nz' (by decide) hu h0 h1 hr
    exact ⟨K, b, k1, b1, fun cells hc => RunsProg_mono (fun s' cells' h => h.1 0) 16 (k2 err he exGens exGens_ok (code exSteady) exSteady_steady 16 exSteadyStart μ b (by decide) hu h0 h1 b1 cells fun c _ => hc c)⟩

theorem exCell_uses : ∀ c, CState.Uses exCellStart c → c < exCellStart.fresh := by
  rintro c (⟨r, cs, h, hc⟩ | ⟨a, cs, h, hc⟩)
  · simp only [exCellStart] at h
    repeat' split at h
    all_goals first | (cases h; simp [List.mem_range'] at hc; simp only [exCellStart]; omega) | cases h
  · cases h

/-- the product of two encrypted bytes -/
def exCellMul : List Inst := [⟨.mul, [2, 0, 1]⟩, ⟨.ret, []⟩]

theorem exCellMul_step : Cells.step (code exCellMul) exCellStart = .ok (some (.mul (List.range' 2 8) (List.range' 10 8), List.range' 18 8),
    { reg := fun r => if r = 2 then .cells (List.range' 18 8) else exCellStart.reg r, mem := fun _ => none, pc := 8, fresh := 26 }, false) := by
  obtain ⟨r, hr⟩ := (replicate_mul 8).2 (.base (by omega) (by omega) (by omega) (by omega))
  have hm : Cells.mul (.cells (List.range' 2 8)) (.cells (List.range' 10 8)) = .ok (.spawn (.mul (List.range' 2 8) (List.range' 10 8)) fun os => [.cells os]) := by
    unfold Cells.mul
    simp only [CReg.width, List.length_range']
    rw [hr]; rfl
  have ha : Cells.alu ⟨.mul, [2, 0, 1]⟩ [.cells (List.range' 2 8), .cells (List.range' 10 8)] = .ok (.spawn (.mul (List.range' 2 8) (List.range' 10 8)) fun os => [.cells os]) := by
    rw [← hm]; rfl
  have he : Cells.exec ⟨.mul, [2, 0, 1]⟩ [.cells (List.range' 2 8), .cells (List.range' 10 8)] (fun _ => none) 18 =
      .ok (some (.mul (List.range' 2 8) (List.range' 10 8), List.range' 18 8), [.cells (List.range' 18 8)], fun _ => none) := by
    unfold Cells.exec; simp only [ha]; rfl
  unfold Cells.step
  have hc : code exCellMul exCellStart.pc = .ok ⟨.mul, [2, 0, 1]⟩ := rfl
  have hs : (⟨.mul, [2, 0, 1]⟩ : Inst).srcs.map exCellStart.reg = [.cells (List.range' 2 8), .cells (List.range' 10 8)] := rfl
  have he' : Cells.exec ⟨.mul, [2, 0, 1]⟩ ((⟨.mul, [2, 0, 1]⟩ : Inst).srcs.map exCellStart.reg) exCellStart.mem exCellStart.fresh =
      .ok (some (.mul (List.range' 2 8) (List.range' 10 8), List.range' 18 8), [.cells (List.range' 18 8)], fun _ => none) := by rw [hs]; exact he
  simp only [hc, he']
  rfl

/-- what the analysis of `exCellMul` yields -/
theorem exCellMul_noise : ∃ s₁ nz', noiseRun 64 exCtParams exCtLevels (code exCellMul) 2 exCellStart (fun _ => 1000) = some (s₁, nz') ∧
    s₁.reg 2 = .cells (List.range' 18 8) ∧ ∀ c ∈ List.range' 18 8, nz' c < 2 ^ 62 := by
  have hn : ∃ B, Job.noise 64 exCtParams exCtLevels (fun _ => 1000) (.mul (List.range' 2 8) (List.range' 10 8)) = some B ∧ B < 2 ^ 62 := by
    have hd : (match Job.noise 64 exCtParams exCtLevels (fun _ => 1000) (.mul (List.range' 2 8) (List.range' 10 8)) with | some B => decide (B < 2 ^ 62) | none => false) = true := by decide +kernel
    cases hj : Job.noise 64 exCtParams exCtLevels (fun _ => 1000) (.mul (List.range' 2 8) (List.range' 10 8)) with
    | none => rw [hj] at hd; cases hd
    | some B => rw [hj] at hd; exact ⟨B, rfl, by simpa using hd⟩
  obtain ⟨B, hB, hlt⟩ := hn
  refine ⟨{ reg := fun r => if r = 2 then .cells (List.range' 18 8) else exCellStart.reg r, mem := fun _ => none, pc := 8, fresh := 26 }, fun c => if c ∈ List.range' 18 8 then B else 1000, ?_, rfl, fun c hc => ?_⟩
  · unfold noiseRun
    rw [exCellMul_step]
    simp only [hB]
    rfl
  · simp only [if_pos hc]; exact hlt

example (err : FheOp → List (Ct 64 × FheEdge) → OpErr 64) (he : ∀ op ins, ErrOk exCtParams 4 exCtLevels.fft (err op ins)) (μ : Nat → Bool) (h0 : μ 0 = false) (h1 : μ 1 = true) :
    ∃ K b, computeKeyGen true exCtParams (bitKey 64 [true, true]) exCtSk exCtDraws = some K ∧ Seq.Returns parasol (code exCellMul) 2 (CState.archOf μ exCellStart) b ∧
      ∀ cells : CtType × Nat → Ct 64,
        (∀ c, CtEncrypts exCtParams (bitKey 64 [true, true]) exCtSk 1000 (ctOf .glwe1 (μ c)) (cells (.glwe1, c))) →
        RunsProg exGens exCtParams K err (code exCellMul) 2 exCellStart cells fun _ cells' =>
          DecryptsReg exCtParams (bitKey 64 [true, true]) exCtSk cells' (.cells (List.range' 18 8)) (b.reg 2) := by
  obtain ⟨K, k1, k2⟩ := C105_program exCtParams_ok exCtSecret_ok true exCtDraws_ok
  obtain ⟨s₁, nz', hr, hr2, hq⟩ := exCellMul_noise
  obtain ⟨b, b1, b2⟩ := k2 err he exGens exGens_ok (code exCellMul) 2 exCellStart s₁ μ _ nz' (by decide) exCell_uses h0 h1 hr
  refine ⟨K, b, k1, b1, fun cells hc => RunsProg_mono ?_ 2 (b2 cells fun c _ => ?_)⟩
  · rintro s' cells' ⟨_, _, _, h4, _⟩
    rw [← hr2]
    refine h4 2 fun cs hcs c hc => ?_
    rw [hr2] at hcs; cases hcs
    exact hq c hc
  · exact (holds_iff exCtParams_ok exCtSecret_ok.key _ _).2 (encrypts_held exCtParams_ok exCtSecret_ok (hc c))
end Spf.Props
