import Verif.Proof.CtPair
import Verif.Props.Machine
import Verif.Props.CellMachine
/-! C106: the out-of-order processor on ciphertexts. -/
namespace Spf.Props
open Spf.Spec Spf.Fhe Spf.Fluent Spf.Tfhe Spf.CtExec Spf.Cells Spf.Cpu Spf.Machine Spf.CtCpu
open Spf.Seq (Arch Returns)

variable {W : Nat}

/-- The processor with compute key `K`, started in `a`, gets to `s` under the schedule `ls`. -/
def ReachesCt (G : Gens) (P : EvalParams) (K : EvalKey W) (err : FheOp → List (Ct W × FheEdge) → OpErr W) (prog : Nat → Except Err Inst) (limit : Option Nat)
    (a : Arch (VReg (Ct W)) Nat (Option (Byte (Ct W)))) (ls : List Label) (s : St Inst (VReg (Ct W)) Nat (Option (Byte (Ct W)))) : Prop :=
  run (isa (ctDom G P K err)) prog a.reg limit (start (isa (ctDom G P K err)) a.mem a.pc blankEntry) ls = some s

/-- the contents of register `r` -/
def ctReg (a : Arch (VReg (Ct W)) Nat (Option (Byte (Ct W)))) (s : St Inst (VReg (Ct W)) Nat (Option (Byte (Ct W)))) (r : Nat) : VReg (Ct W) := s.val a.reg (s.rename r)

theorem limit_ct {D : Dom (Ct W)} {limit : Option Nat} (h : ∀ L, limit = some L → 500000 ≤ L) :
    ∀ inst vs, limit.any ((isa D).gas inst vs > ·) = false := fun inst vs => limit_high h inst (vs.map VReg.shape)

theorem decrypts_lists {n v : Nat} {P : EvalParams} (hP : ParamsOk W n v P) {ν : NoiseLevels} {s : List Bool} {sk : List (List (BitVec W))} (hs : SecretOk P n ν s sk)
    {ns : List Nat} {bs : List Bool} {cs : List (Ct W)} (h : HoldsV P (bitKey W s) sk (.cts ns) (.cipher bs) (.cts cs)) (hq : ∀ B ∈ ns, B < 2 ^ (W - 2)) :
    List.Forall₂ (fun c b => CtDecrypts P (bitKey W s) sk c (ctOf .glwe1 b)) cs bs := by
  obtain ⟨⟨h1, h2⟩, h3⟩ := h
  rw [List.forall₂_iff_get]
  refine ⟨h2, fun i hi hi' => ?_⟩
  have hn : i < ns.length := by omega
  exact held_decrypts hP hs ((holds_iff hP hs.key _ _).1 (h3 i _ _ _ (List.getElem?_eq_getElem hn) (List.getElem?_eq_getElem hi') (List.getElem?_eq_getElem hi)))
    (hq _ (List.getElem_mem hn))

theorem decryptsV {n v : Nat} {P : EvalParams} (hP : ParamsOk W n v P) {ν : NoiseLevels} {s : List Bool} {sk : List (List (BitVec W))} (hs : SecretOk P n ν s sk)
    {x : VReg Nat} {r : Reg} {c : VReg (Ct W)} (h : HoldsV P (bitKey W s) sk x r c) (hq : ∀ l, x = .cts l → ∀ B ∈ l, B < 2 ^ (W - 2)) : DecryptsV P (bitKey W s) sk c r := by
  rcases holdsV_cases h with ⟨y, w, rfl, rfl, rfl⟩ | ⟨ns, bs, cs, rfl, rfl, rfl⟩
  · exact ⟨rfl, rfl⟩
  · exact decrypts_lists hP hs h (hq ns rfl)

theorem decryptsVByte {n v : Nat} {P : EvalParams} (hP : ParamsOk W n v P) {ν : NoiseLevels} {s : List Bool} {sk : List (List (BitVec W))} (hs : SecretOk P n ν s sk)
    {x : Option (Byte Nat)} {r : Option (Byte Bool)} {c : Option (Byte (Ct W))} (h : HoldsVByte P (bitKey W s) sk x r c) (hq : ∀ l, x = some (.cipher l) → ∀ B ∈ l, B < 2 ^ (W - 2)) :
    DecryptsVByte P (bitKey W s) sk c r := by
  match x, r, c, h, hq with
  | none, none, none, _, _ => trivial
  | some (.plain x), some (.plain _), some (.plain _), ⟨rfl, rfl⟩, _ => exact rfl
  | some (.cipher ns), some (.cipher bs), some (.cipher cs), h, hq => exact decrypts_lists hP hs h (hq ns rfl)

/-- **C106.** Generate keys. Take a program whose noise analysis returns (so no bootstrap may fail) and that is steady in the sense of C38 (no address or branch condition is pending when it
is needed). Started on ciphertexts it does, under every schedule of the out-of-order machine, what it does one instruction at a time in the clear: no schedule faults, none is longer than a bound and each can be
continued until the program has returned; then the registers and the memory hold encryptions of the bits computed in the clear, with the noise of the analysis, and decrypt to them if this is below a quarter of the torus. -/
theorem C106_processor {n v : Nat} {P : EvalParams} (hP : ParamsOk W n v P) {ν : NoiseLevels} {s : List Bool} {sk : List (List (BitVec W))} (hs : SecretOk P n ν s sk)
    (checked : Bool) {D : KeyDraws W} (hD : DrawsOk P n ν D) :
    ∃ K, computeKeyGen checked P (bitKey W s) sk D = some K ∧ ∀ err : FheOp → List (Ct W × FheEdge) → OpErr W, (∀ op ins, ErrOk P n ν.fft (err op ins)) →
      ∀ G : Gens, GensOk G → ∀ (prog : Nat → Except Err Inst) (limit : Option Nat) (N : Nat) (aN bN : Arch (VReg Nat) Nat (Option (Byte Nat))) (a : Regs)
        (aC : Arch (VReg (Ct W)) Nat (Option (Byte (Ct W)))), (∀ L, limit = some L → 500000 ≤ L) → HoldsArch P (bitKey W s) sk aN a aC →
        Returns (isa (noiseDom W P ν)) prog N aN bN → Seq.Steady parasol prog Inst.key N a .none →
        ∃ b bound, Returns parasol prog N a b ∧ ∀ ls st, ReachesCt G P K err prog limit aC ls st →
          st.fault = none ∧ ls.length ≤ bound ∧ (st.done ∨ ∃ l st', Machine.step (isa (ctDom G P K err)) prog aC.reg limit st l = some st') ∧
          (st.done → st.n = N ∧ (∀ r, HoldsV P (bitKey W s) sk (bN.reg r) (b.reg r) (ctReg aC st r)) ∧ (∀ x, HoldsVByte P (bitKey W s) sk (bN.mem x) (b.mem x) (st.mem x)) ∧
            (∀ r, (∀ l, bN.reg r = .cts l → ∀ B ∈ l, B < 2 ^ (W - 2)) → DecryptsV P (bitKey W s) sk (ctReg aC st r) (b.reg r)) ∧
            ∀ x, (∀ l, bN.mem x = some (.cipher l) → ∀ B ∈ l, B < 2 ^ (W - 2)) → DecryptsVByte P (bitKey W s) sk (st.mem x) (b.mem x)) := by
  obtain ⟨K, k1, k2⟩ := keygen_ok hP hs checked hD
  refine ⟨K, k1, fun err he G hG prog limit N aN bN a aC hlim ha hr hst => ?_⟩
  obtain ⟨b, bC, h1, h2, h3, h4⟩ := ct_returns hs k2 he hG ha hr
  obtain ⟨Wv, hW0, hok⟩ := ok_of_steady N aC bC .none h2 (h4 _ hst)
  refine ⟨b, weight (start (isa (ctDom G P K err)) aC.mem aC.pc blankEntry) + restCost (isa (ctDom G P K err)) prog aC N 0, h1, fun ls st hreach => ?_⟩
  have hwf : WF st := wf_run _ prog aC.reg limit ls (wf_start _ _ _ _) hreach
  obtain ⟨hsem, hlate, _⟩ := steady_run (local_isa (ctDom G P K err)) (limit_ct hlim) N Wv hok hW0 ls (wf_start _ _ _ _) (sem_start aC blankEntry)
    (late_start N Wv hok.pos blankEntry) hreach
  refine ⟨hlate.noFault, ?_, ?_, fun hd => ?_⟩
  · exact steady_bound (local_isa _) (limit_ct hlim) N Wv hok hW0 ls (wf_start _ _ _ _) (sem_start aC blankEntry) (late_start N Wv hok.pos blankEntry) hreach
  · by_cases hd : st.done
    · exact Or.inl hd
    · refine Or.inr (progress aC.reg hwf ?_ hd)
      cases hl : st.lost with
      | none => rfl
      | some i => exact absurd hlate.noFault (hwf.lostW i hl).2.2.2
  · obtain ⟨b', e1, e2, e3⟩ := done_result hwf hsem hd
    obtain ⟨e4, e5⟩ := Seq.returns_det e1 h2
    subst e5
    have hreg : ∀ r, HoldsV P (bitKey W s) sk (bN.reg r) (b.reg r) (ctReg aC st r) := fun r => by rw [ctReg, e3 r]; exact h3.reg r
    have hmem : ∀ x, HoldsVByte P (bitKey W s) sk (bN.mem x) (b.mem x) (st.mem x) := fun x => by rw [e2]; exact h3.mem x
    exact ⟨e4, hreg, hmem, fun r hq => decryptsV hP hs (hreg r) hq, fun x hq => decryptsVByte hP hs (hmem x) hq⟩

/-- **C106, programs of any length.** Take a program of instructions other than exclusive or, `cmux` and shifts (multiplication only if `mul`), and `B` at least the noise of their deepest circuit and below the
bootstrapping limit after a keyswitch. Started on ciphertexts of noise at most `B`: if it returns in the clear and is steady in the sense of C38, then under every schedule the processor ends without a fault, and the owner of
the key decrypts all registers and memory to the bits computed in the clear. -/
theorem C106_any_length {n v : Nat} {P : EvalParams} (hP : ParamsOk W n v P) {ν : NoiseLevels} {s : List Bool} {sk : List (List (BitVec W))} (hs : SecretOk P n ν s sk)
    (checked : Bool) {D : KeyDraws W} (hD : DrawsOk P n ν D) {mul : Bool} {B : Nat} (hB : steadyNoise W P ν mul ≤ B) (hb : B + ksNoise W P ν < bootLimit W P ν) :
    ∃ K, computeKeyGen checked P (bitKey W s) sk D = some K ∧ ∀ err : FheOp → List (Ct W × FheEdge) → OpErr W, (∀ op ins, ErrOk P n ν.fft (err op ins)) →
      ∀ G : Gens, GensOk G → ∀ prog : Nat → Except Err Inst, (∀ pc i, prog pc = .ok i → Spec.Steady mul i) → ∀ (limit : Option Nat) (N : Nat) (a b : Regs)
        (aC : Arch (VReg (Ct W)) Nat (Option (Byte (Ct W)))), (∀ L, limit = some L → 500000 ≤ L) → HoldsArch P (bitKey W s) sk (uniformNoise B a) a aC →
        Returns parasol prog N a b → Seq.Steady parasol prog Inst.key N a .none →
        ∃ bound, ∀ ls st, ReachesCt G P K err prog limit aC ls st →
          st.fault = none ∧ ls.length ≤ bound ∧ (st.done ∨ ∃ l st', Machine.step (isa (ctDom G P K err)) prog aC.reg limit st l = some st') ∧
          (st.done → st.n = N ∧ (∀ r, DecryptsV P (bitKey W s) sk (ctReg aC st r) (b.reg r)) ∧ ∀ x, DecryptsVByte P (bitKey W s) sk (st.mem x) (b.mem x)) := by
  obtain ⟨K, k1, k2⟩ := C106_processor hP hs checked hD
  refine ⟨K, k1, fun err he G hG prog hp limit N a b aC hlim ha hr hst => ?_⟩
  obtain ⟨bN, e1, e2⟩ := uniform_returns hB hb hp hr
  obtain ⟨b', bound, h1, h2⟩ := k2 err he G hG prog limit N _ bN a aC hlim ha e1 hst
  obtain rfl := (Seq.returns_det h1 hr).2
  have hlt : B < 2 ^ (W - 2) := by
    have : bootLimit W P ν ≤ 2 ^ (W - 2) := Nat.sub_le _ _
    omega
  have hle : ∀ {l : List Nat} {l' : List Bool}, List.Forall₂ (fun x (_ : Bool) => x ≤ B) l l' → ∀ x ∈ l, x < 2 ^ (W - 2) := by
    intro l l' hl
    induction hl with
    | nil => intro x hx; cases hx
    | cons h _ ih => intro x hx; rcases List.mem_cons.1 hx with rfl | hx; exacts [Nat.lt_of_le_of_lt h hlt, ih x hx]
  refine ⟨bound, fun ls st hreach => ?_⟩
  obtain ⟨f1, f2, f3, f4⟩ := h2 ls st hreach
  refine ⟨f1, f2, f3, fun hd => ?_⟩
  obtain ⟨g1, _, _, g4, g5⟩ := f4 hd
  refine ⟨g1, fun r => g4 r fun l hl => ?_, fun x => g5 x fun l hl => ?_⟩
  · have := e2.reg r
    rw [hl] at this
    cases hx : (fromArch b').reg r with
    | plain y w => rw [hx] at this; exact absurd this id
    | cts l' => rw [hx] at this; exact hle this
  · have := e2.mem x
    rw [hl] at this
    rcases byteRel_cases this with ⟨h, _⟩ | ⟨y, h, _⟩ | ⟨m, m', h, _, hf⟩
    · cases h
    · cases h
    · cases h; exact hle hf

theorem nodeEval_congr {V : Type} {ex : (CtType → Nat → V) → FheOp → List (V × FheEdge) → Option V} (hI : SchedG.Interp ex) {c₁ c₂ : CtType → Nat → V} {g : FGraph}
    (h : ∀ a t c, g.weight a = some (.input t c) → c₁ t c = c₂ t c) {a : Nat} {v : V} (hn : NodeEval (ex c₁) g a v) : NodeEval (ex c₂) g a v := by
  induction hn with
  | @op a op v f hw _ hx ih =>
    refine .op f hw ih ?_
    rw [← hx]
    exact (hI.cells c₁ c₂ op _ fun t i hop => h a t i (by rw [← hop]; exact hw)).symm

theorem mapM_get {α β : Type} {f : α → Option β} : ∀ {l : List α} {r : List β}, l.mapM f = some r → ∀ {i : Nat} {x : α}, l[i]? = some x → ∃ y, f x = some y ∧ r[i]? = some y
  | [], _, _, i, x, h => by simp at h
  | a :: as, r, hm, i, x, h => by
    rw [List.mapM_cons] at hm
    cases hx : f a with
    | none => rw [hx] at hm; cases hm
    | some y =>
      rw [hx] at hm
      cases hxs : as.mapM f with
      | none => rw [hxs] at hm; cases hm
      | some ys =>
        rw [hxs] at hm; cases hm
        match i, h with
        | 0, h => cases h; exact ⟨y, hx, rfl⟩
        | i + 1, h => exact mapM_get hxs h

/-- **The results of an instruction are those of the worker threads.** The model of the processor computes the results of an instruction from its circuit (`ctDom`). Let this circuit be number `k` of any circuits (with disjoint
cells) given to the circuit processor, which is started with the operands in their cells. When the completion callback of circuit `k` has reported success, under any number of threads, budget and schedule, its output cells hold these results. -/
theorem C106_run_schedule {P : EvalParams} {K : EvalKey W} {err : FheOp → List (Ct W × FheEdge) → OpErr W} {G : Gens} {job : Job} {outs : List Nat} {g : FGraph} (hb : job.build G outs = some g)
    {val : Nat → Ct W} {os : List (Ct W)} (hrun : (ctDom G P K err).run job outs val = some os) {gs : List (FGraph × List Nat)} (ht : ∀ p ∈ gs, Sched.TopoOrder p.1 p.2) (ha : Sched.Apart gs)
    {items : List (Sched.Item FheOp Sched.RtErr FheEdge)} (hsp : Sched.spawnAll gs 0 0 = some items) {threads tokens : Nat} {cells : CtType × Nat → Ct W}
    {st : Sched.State (Ct W) Sched.RtErr (CtType × Nat) FheEdge} (hr : Reached (liftExec (execCt P K err)) threads tokens items cells st) {k : Nat} {ord : List Nat} (hk : gs[k]? = some (g, ord))
    (hf : none ∈ st.fired k) (hin : ∀ a t c, g.weight a = some (.input t c) → cells (t, c) = val c) {i o : Nat} (ho : outs[i]? = some o) : os[i]? = some (st.cells (.glwe1, o)) := by
  simp only [ctDom, hb] at hrun
  obtain ⟨v, h1, h2⟩ := mapM_get hrun ho
  rw [h2]
  unfold evalOut at h1
  cases hfd : g.indices.find? (isOut g o) with
  | none => rw [hfd] at h1; cases h1
  | some a =>
    rw [hfd] at h1
    simp only at h1
    have hw := List.find?_some hfd
    simp only [isOut, decide_eq_true_eq] at hw
    obtain ⟨x, x1, x2⟩ := SchedG.sched16_circuits (interp_execCt P K err) ht ha hsp hr hk hf hw
    have h4 := nodeEval_congr (interp_execCt P K err) (c₂ := fun _ c => val c) (fun a t c hw => hin a t c hw) x1
    have h3 : NodeEval (execCt P K err fun _ c => val c) g a v := evalNode_sound h1
    rw [x2, SchedG.NodeEval.unique h3 h4]

/-! ### concrete cases -/

/-- two encrypted bytes in registers 0 and 1, five iterations (see `exSteady`) -/
def exCtBits : Regs :=
  { reg := fun r => if r = 0 then .cipher [true, false, true, true, false, false, true, false] else if r = 1 then .cipher [true, true, false, false, true, false, false, false] else if r = 2 then .plain 5 32 else if r = 3 then .plain 1 32 else .default
    mem := fun _ => none, pc := 0 }

/-- ciphertexts `x` and `y` in registers 0 and 1 -/
def exCtStart (x y : List (Ct 64)) : Arch (VReg (Ct 64)) Nat (Option (Byte (Ct 64))) :=
  { reg := fun r => if r = 0 then .cts x else if r = 1 then .cts y else if r = 2 then .plain 5 32 else if r = 3 then .plain 1 32 else .plain 0 32
    mem := fun _ => none, pc := 0 }

theorem exCt_returns : ∃ b, Returns parasol (code exSteady) 16 exCtBits b ∧ b.reg 0 = .cipher [false, false, true, true, false, true, false, true] := by
  obtain ⟨b, h1, h2⟩ := Seq.returns_of_any (isa := parasol) (prog := code exSteady) (n := 16) (a := exCtBits)
    (f := fun b => b.reg 0 == .cipher [false, false, true, true, false, true, false, true]) (by decide +kernel)
  exact ⟨b, h1, by simpa using h2⟩

theorem exCt_steady : Seq.Steady parasol (code exSteady) Inst.key 16 exCtBits .none := Seq.steady_of_B _ _ _ (by decide +kernel)

theorem exCt_holds {B : Nat} {P : EvalParams} {s : List (BitVec 64)} {sk : List (List (BitVec 64))} {x y : List (Ct 64)}
    (hx : List.Forall₂ (fun c b => CtHolds P s sk B c (ctOf .glwe1 b)) x [true, false, true, true, false, false, true, false])
    (hy : List.Forall₂ (fun c b => CtHolds P s sk B c (ctOf .glwe1 b)) y [true, true, false, false, true, false, false, false]) :
    HoldsArch P s sk (uniformNoise B exCtBits) exCtBits (exCtStart x y) := by
  have hl : ∀ {l : List (Ct 64)} {bs : List Bool}, List.Forall₂ (fun c b => CtHolds P s sk B c (ctOf .glwe1 b)) l bs → HoldsV P s sk (.cts (bs.map fun _ => B)) (.cipher bs) (.cts l) := by
    intro l bs h
    refine ⟨⟨by simp, h.length_eq⟩, fun i n b c hn hb hc => ?_⟩
    obtain ⟨hi, rfl⟩ := List.getElem?_eq_some_iff.1 hb
    obtain ⟨hi', rfl⟩ := List.getElem?_eq_some_iff.1 hc
    rw [List.getElem?_map, hb] at hn
    cases hn
    exact (List.forall₂_iff_get.1 h).2 i hi' hi
  refine ⟨fun r => ?_, fun x => trivial, rfl, rfl⟩
  simp only [uniformNoise, exCtBits, exCtStart]
  by_cases h0 : r = 0
  · simp only [if_pos h0]; exact hl hx
  by_cases h1 : r = 1
  · simp only [if_neg h0, if_pos h1]; exact hl hy
  by_cases h2 : r = 2
  · simp only [if_neg h0, if_neg h1, if_pos h2]; exact ⟨⟨rfl, rfl⟩, rfl, rfl⟩
  by_cases h3 : r = 3
  · simp only [if_neg h0, if_neg h1, if_neg h2, if_pos h3]; exact ⟨⟨rfl, rfl⟩, rfl, rfl⟩
  · simp only [if_neg h0, if_neg h1, if_neg h2, if_neg h3]; exact ⟨⟨rfl, rfl⟩, rfl, rfl⟩

/-- 77 + 5 * 19 = 172, computed by a loop on encrypted bytes, under every schedule -/
example (err : FheOp → List (Ct 64 × FheEdge) → OpErr 64) (he : ∀ op ins, ErrOk exCtParams 4 exCtLevels.fft (err op ins)) (x y : List (Ct 64))
    (hx : List.Forall₂ (fun c b => CtHolds exCtParams (bitKey 64 [true, true]) exCtSk (10 ^ 18) c (ctOf .glwe1 b)) x [true, false, true, true, false, false, true, false])
    (hy : List.Forall₂ (fun c b => CtHolds exCtParams (bitKey 64 [true, true]) exCtSk (10 ^ 18) c (ctOf .glwe1 b)) y [true, true, false, false, true, false, false, false]) :
    ∃ K, computeKeyGen true exCtParams (bitKey 64 [true, true]) exCtSk exCtDraws = some K ∧ ∃ bound, ∀ ls st, ReachesCt exGens exCtParams K err (code exSteady) none (exCtStart x y) ls st →
      st.fault = none ∧ ls.length ≤ bound ∧ (st.done → DecryptsV exCtParams (bitKey 64 [true, true]) exCtSk (ctReg (exCtStart x y) st 0) (.cipher [false, false, true, true, false, true, false, true])) := by
  obtain ⟨K, k1, k2⟩ := C106_any_length exCtParams_ok exCtSecret_ok true exCtDraws_ok exSteady_limits.1 exSteady_limits.2
  obtain ⟨b, b1, b2⟩ := exCt_returns
  obtain ⟨bound, h⟩ := k2 err he exGens exGens_ok (code exSteady) exSteady_steady none 16 exCtBits b _ (by intro L h; cases h) (exCt_holds hx hy) b1 exCt_steady
  refine ⟨K, k1, bound, fun ls st hr => ?_⟩
  obtain ⟨f1, f2, _, f4⟩ := h ls st hr
  exact ⟨f1, f2, fun hd => by rw [← b2]; exact (f4 hd).2.1 0⟩

/-- the noise analysis of `exCellProg` (an addition, a comparison, a `cmux`) on the processor -/
theorem exCt_noise : ∃ bN, Returns (isa (noiseDom 64 exCtParams exCtLevels)) (code exCellProg) 4 (uniformNoise 1000 exCtBits) bN ∧
    (match bN.reg 4 with | .cts l => l.all fun B => decide (B < 2 ^ 62) | _ => false) = true :=
  Seq.returns_of_any (isa := isa (noiseDom 64 exCtParams exCtLevels)) (prog := code exCellProg) (n := 4) (a := uniformNoise 1000 exCtBits)
    (f := fun b => match b.reg 4 with | .cts l => l.all fun B => decide (B < 2 ^ 62) | _ => false) (by decide +kernel)

example (err : FheOp → List (Ct 64 × FheEdge) → OpErr 64) (he : ∀ op ins, ErrOk exCtParams 4 exCtLevels.fft (err op ins)) (x y : List (Ct 64))
    (hx : List.Forall₂ (fun c b => CtEncrypts exCtParams (bitKey 64 [true, true]) exCtSk 1000 (ctOf .glwe1 b) c) x [true, false, true, true, false, false, true, false])
    (hy : List.Forall₂ (fun c b => CtEncrypts exCtParams (bitKey 64 [true, true]) exCtSk 1000 (ctOf .glwe1 b) c) y [true, true, false, false, true, false, false, false]) :
    ∃ K b, computeKeyGen true exCtParams (bitKey 64 [true, true]) exCtSk exCtDraws = some K ∧ Returns parasol (code exCellProg) 4 exCtBits b ∧
      ∀ ls st, ReachesCt exGens exCtParams K err (code exCellProg) (some 600000) (exCtStart x y) ls st → st.done →
        DecryptsV exCtParams (bitKey 64 [true, true]) exCtSk (ctReg (exCtStart x y) st 4) (b.reg 4) := by
  obtain ⟨K, k1, k2⟩ := C106_processor exCtParams_ok exCtSecret_ok true exCtDraws_ok
  obtain ⟨bN, b1, b2⟩ := exCt_noise
  have hold : ∀ {l : List (Ct 64)} {bs : List Bool}, List.Forall₂ (fun c b => CtEncrypts exCtParams (bitKey 64 [true, true]) exCtSk 1000 (ctOf .glwe1 b) c) l bs →
      List.Forall₂ (fun c b => CtHolds exCtParams (bitKey 64 [true, true]) exCtSk 1000 c (ctOf .glwe1 b)) l bs := fun h =>
    h.imp fun c b hc => (holds_iff exCtParams_ok exCtSecret_ok.key _ _).2 (encrypts_held exCtParams_ok exCtSecret_ok hc)
  obtain ⟨b, bound, h1, h2⟩ := k2 err he exGens exGens_ok (code exCellProg) (some 600000) 4 _ bN exCtBits _ (by rintro L h; cases h; omega) (exCt_holds (hold hx) (hold hy)) b1
    (Seq.steady_of_B _ _ _ (by decide +kernel))
  refine ⟨K, b, k1, h1, fun ls st hr hd => ((h2 ls st hr).2.2.2 hd).2.2.2.1 4 fun l hl B hB => ?_⟩
  rw [hl] at b2
  simpa using List.all_eq_true.1 b2 B hB

/-- the circuit of an exclusive or of encrypted bytes, on its own: the callback reports success, and the output cells hold the results of the instruction -/
example (err : FheOp → List (Ct 64 × FheEdge) → OpErr 64) (he : ∀ op ins, ErrOk exCtParams 4 exCtLevels.fft (err op ins)) (μ : Nat → Bool) (val : Nat → Ct 64)
    (hin : ∀ c, CtHolds exCtParams (bitKey 64 [true, true]) exCtSk 1000 (val c) (ctOf .glwe1 (μ c))) :
    ∃ K g os, computeKeyGen true exCtParams (bitKey 64 [true, true]) exCtSk exCtDraws = some K ∧ (Job.xor (List.range' 2 8) (List.range' 10 8)).build exGens (List.range' 18 8) = some g ∧
      (ctDom exGens exCtParams K err).run (.xor (List.range' 2 8) (List.range' 10 8)) (List.range' 18 8) val = some os ∧
      ∀ ord, Sched.TopoOrder g ord → ∃ items, Sched.spawnAll [(g, ord)] 0 0 = some items ∧ ∀ threads tokens st,
        Reached (liftExec (execCt exCtParams K err)) threads tokens items (fun p => val p.2) st → Finished items st → os[3]? = some (st.cells (.glwe1, 21)) := by
  obtain ⟨K, k1, k2⟩ := keygen_ok exCtParams_ok exCtSecret_ok true exCtDraws_ok
  have hok : Job.Ok (.xor (List.range' 2 8) (List.range' 10 8)) := by show (List.range' 2 8).length = (List.range' 10 8).length; simp
  have hlen : (List.range' 18 8).length = (Job.xor (List.range' 2 8) (List.range' 10 8)).size := by simp [Job.size]
  have hn : Job.noise 64 exCtParams exCtLevels (fun _ => 1000) (.xor (List.range' 2 8) (List.range' 10 8)) = some 2000 := by decide +kernel
  have hdis : ∀ c ∈ (Job.xor (List.range' 2 8) (List.range' 10 8)).ins, c ∉ List.range' 18 8 := by decide +kernel
  obtain ⟨g, g1, g2⟩ := job_run (cells := fun p => val p.2) exCtSecret_ok k2 he exGens_ok hok hlen List.nodup_range' hdis (fun c _ => hin c) hn
  obtain ⟨os, o1, _⟩ := run_holds_ct exCtSecret_ok k2 he exGens_ok hok hlen List.nodup_range' hin hn
  obtain ⟨g', q1, q2⟩ := Cells.build_ok (d := exCtParams.degree) (cells := fun t c => ctOf t (μ c)) (W := 64) (P := exCtParams) (ν := exCtLevels) (nz := fun _ _ => 1000) exGens_ok (by decide) hok hlen
    List.nodup_range' (μ := μ) (fun _ _ => rfl) hn
  rw [g1] at q1
  cases q1
  refine ⟨K, g, os, k1, g1, o1, fun ord ht => ?_⟩
  obtain ⟨items, i1, i2⟩ := g2.2 ord ht
  refine ⟨items, i1, fun threads tokens st hr hf => ?_⟩
  have one : ∀ (k : Nat) (p : FGraph × List Nat), [(g, ord)][k]? = some p → k = 0 ∧ p = (g, ord) := by
    intro k p hp
    match k, hp with
    | 0, hp => cases hp; exact ⟨rfl, rfl⟩
  have hap : Sched.Apart [(g, ord)] := by
    constructor
    · intro k k' p p' n n' t c hk hk' hn hn'
      obtain ⟨rfl, rfl⟩ := one k p hk
      obtain ⟨rfl, rfl⟩ := one k' p' hk'
      exact ⟨rfl, q2.outsIn.2 n n' t c hn hn'⟩
    · intro k k' p p' n n' t c hk hk' hn hn'
      obtain ⟨rfl, rfl⟩ := one k p hk
      obtain ⟨rfl, rfl⟩ := one k' p' hk'
      obtain ⟨c1, hc1, e1⟩ := List.mem_map.1 (show (t, c) ∈ _ from q2.good.ops n _ hn)
      obtain ⟨c2, hc2, e2⟩ := List.mem_map.1 (q2.outsIn.1 n' t c hn')
      simp only [Prod.mk.injEq] at e1 e2
      exact hdis c1 hc1 (by rw [e1.2, ← e2.2]; exact hc2)
  exact C106_run_schedule g1 o1 (by intro p hp; rw [List.mem_singleton.1 hp]; exact ht) hap i1 hr (k := 0) (ord := ord) rfl (by rw [(i2 threads tokens st hr hf).1]; simp)
    (fun _ _ _ _ => rfl) (i := 3) (o := 21) rfl

end Spf.Props
