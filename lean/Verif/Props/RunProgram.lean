import Verif.Proof.RunProgramSim
import Verif.Props.CtMachine
/-! C108: a call of a program in memory, on ciphertexts. -/
namespace Spf.Props
open Spf.Cpu hiding fetchInst
open Spf.Spec hiding Ty
open Spf.Fhe Spf.Fluent Spf.Tfhe Spf.CtExec Spf.Cells Spf.Machine Spf.CtCpu
open Spf.Seq (Arch Returns StoredReturns KeepsCode OnlyRuns Slow)

variable {W : Nat}

/-- The processor with compute key `K`, whose program is in the memory, started in `a`, gets to `s` under the schedule `ls`. -/
def ReachesCtM (G : Gens) (P : EvalParams) (K : EvalKey W) (err : FheOp → List (Ct W × FheEdge) → OpErr W) (limit : Option Nat)
    (a : Arch (VReg (Ct W)) Nat (Option (Byte (Ct W)))) (ls : List Label) (s : St Inst (VReg (Ct W)) Nat (Option (Byte (Ct W)))) : Prop :=
  runM (isa (ctDom G P K err)) fetchInst a.reg limit (start (isa (ctDom G P K err)) a.mem a.pc blankEntry) ls = some s

theorem memHolds_rel {P : EvalParams} {s : List (BitVec W)} {sk : List (List (BitVec W))} {B : Nat} {m : Mem Bool} {c : Mem (Ct W)} (h : MemHolds P s sk B m c) :
    MemRel (fun b c => CtHolds P s sk B c (ctOf .glwe1 b)) m c where
  sp := h.sp.symm
  byte := fun x => by
    have hb := h.byte x
    cases hx : viewOf m x with
    | none =>
      cases hy : viewOf c x with
      | none => trivial
      | some y => rw [hx, hy] at hb; exact absurd hb id
    | some x1 =>
      cases hy : viewOf c x with
      | none => rw [hx, hy] at hb; cases x1 <;> exact absurd hb id
      | some y1 =>
        rw [hx, hy] at hb
        cases x1 <;> cases y1 <;> first | exact absurd hb id | exact hb

theorem valRel_mono {α β : Type} {R S : α → β → Prop} (h : ∀ x y, R x y → S x y) : ∀ (t : Cpu.Ty) {v : t.Val α} {v' : t.Val β}, ValRel R t v v' → ValRel S t v v'
  | .prim _, _, _, hv => hv
  | .enc _, v, v', hv => (show List.Forall₂ R v v' from hv).imp h
  | .arr _ t, v, v', hv => (show List.Forall₂ (ValRel R t) v v' from hv).imp fun _ _ hx => valRel_mono h t hx
  | .unit, _, _, _ => trivial

theorem args_rel {P : EvalParams} {s : List (BitVec W)} {sk : List (List (BitVec W))} {B : Nat} : ∀ {args : List (EncArg W)}, (∀ x ∈ args, x.Holds P s sk B) →
    List.Forall₂ (ArgRel fun b c => CtHolds P s sk B c (ctOf .glwe1 b)) (args.map fun x => toArg x.ty x.bits) (args.map fun x => toArg x.ty x.cts)
  | [], _ => .nil
  | x :: xs, h => .cons ⟨rfl, toBytes_rel x.ty (h x (by simp))⟩ (args_rel fun y hy => h y (by simp [hy]))

theorem callReg_rel {α : Type} {R : α → Bool → Prop} (sp r k : Nat) : RegRel R (callReg VReg.plain sp r k) (fromReg (callReg Reg.plain sp r k)) := by
  unfold callReg
  by_cases h2 : k = 2
  · rw [if_pos h2, if_pos h2]; exact ⟨rfl, rfl⟩
  · rw [if_neg h2, if_neg h2]
    by_cases h10 : k = 10
    · rw [if_pos h10, if_pos h10]; exact ⟨rfl, rfl⟩
    · rw [if_neg h10, if_neg h10]; exact ⟨rfl, rfl⟩

/-- All schedules of a program in memory that returns, is steady and keeps its code. -/
theorem call_schedules {D : Dom (Ct W)} {limit : Option Nat} (hlim : ∀ L, limit = some L → 500000 ≤ L) {aC bC : Arch (VReg (Ct W)) Nat (Option (Byte (Ct W)))} {N : Nat} {code : Nat → Prop}
    (r1 : Returns (isa D) (fetchInst aC.mem) N aC bC) (hst : Seq.Steady (isa D) (fetchInst aC.mem) Inst.key N aC .none)
    (r2 : ∀ j, j < N → ∀ x ∈ instBytes (T (isa D) (fetchInst aC.mem) aC j).pc, code x) (r3 : ∀ j, j ≤ N → ∀ x, code x → (T (isa D) (fetchInst aC.mem) aC j).mem x = aC.mem x) :
    ∃ bound, ∀ ls st, runM (isa D) fetchInst aC.reg limit (start (isa D) aC.mem aC.pc blankEntry) ls = some st →
      st.fault = none ∧ ls.length ≤ bound ∧ (st.done ∨ ∃ l st', stepM (isa D) fetchInst aC.reg limit st l = some st') ∧ (st.done → st.mem = bC.mem) := by
  obtain ⟨Wv, hW0, hok⟩ := ok_of_steady N aC bC .none r1 hst
  refine ⟨weight (start (isa D) aC.mem aC.pc blankEntry) + restCost (isa D) (fetchInst aC.mem) aC N 0, fun ls st hreach => ?_⟩
  obtain ⟨e1, e2⟩ := runM_eq (limit := limit) fetch_local (local_isa D) (limit_ct hlim) N Wv hok hW0 r2 r3 ls (wf_start _ _ _ _) (sem_start aC blankEntry)
    (late_start N Wv hok.pos blankEntry)
  have hrun := e1.symm.trans hreach
  have hwf : WF st := wf_run _ (fetchInst aC.mem) aC.reg limit ls (wf_start _ _ _ _) hrun
  obtain ⟨hsem, hlate, _⟩ := steady_run (local_isa D) (limit_ct hlim) N Wv hok hW0 ls (wf_start _ _ _ _) (sem_start aC blankEntry) (late_start N Wv hok.pos blankEntry) hrun
  refine ⟨hlate.noFault, ?_, ?_, fun hd => ?_⟩
  · exact steady_bound (local_isa _) (limit_ct hlim) N Wv hok hW0 ls (wf_start _ _ _ _) (sem_start aC blankEntry) (late_start N Wv hok.pos blankEntry) hrun
  · by_cases hd : st.done
    · exact Or.inl hd
    · have hlost : st.lost = none := by
        cases hl : st.lost with
        | none => rfl
        | some i => exact absurd hlate.noFault (hwf.lostW i hl).2.2.2
      obtain ⟨l, st', hstep⟩ := progress aC.reg hwf hlost hd
      exact Or.inr ⟨l, st', by rw [e2 st hreach l]; exact hstep⟩
  · obtain ⟨c, g1, g2, _⟩ := done_result hwf hsem hd
    obtain ⟨_, rfl⟩ := Seq.returns_det g1 r1
    exact g2

/-- **C108.** Generate keys; take `B` at least the noise of the deepest circuit and below the bootstrapping limit after a keyswitch. A client passes encrypted (and plaintext) arguments of any types, of noise at most `B`, to a
program in memory. Suppose that in the clear, with the bits in place of their encryptions, the call frame can be set up, the instructions read from memory one after the other return, and the return value `v` can be read; that they
do not change the code, are steady (C38) and are none of exclusive or, `cmux`, shifts (nor multiplication, unless `mul`). Then on ciphertexts the frame is set up with the return value at the same address, and under every schedule of the processor there is no fault, the
run is no longer than a bound and can be continued until `run_program` returns; the value returned then decrypts to `v`, and its noise is again at most `B`, so that it can be passed to any number of further calls. -/
theorem C108_run_program {n v : Nat} {P : EvalParams} (hP : ParamsOk W n v P) {ν : NoiseLevels} {s : List Bool} {sk : List (List (BitVec W))} (hs : SecretOk P n ν s sk)
    (checked : Bool) {D : KeyDraws W} (hD : DrawsOk P n ν D) {mul : Bool} {B : Nat} (hB : steadyNoise W P ν mul ≤ B) (hb : B + ksNoise W P ν < bootLimit W P ν) :
    ∃ K, computeKeyGen checked P (bitKey W s) sk D = some K ∧ ∀ err : FheOp → List (Ct W × FheEdge) → OpErr W, (∀ op ins, ErrOk P n ν.fft (err op ins)) →
      ∀ G : Gens, GensOk G → ∀ (limit : Option Nat), (∀ L, limit = some L → 500000 ≤ L) → ∀ (mem : Mem Bool) (memC : Mem (Ct W)), MemHolds P (bitKey W s) sk B mem memC →
      ∀ (args : List (EncArg W)), (∀ x ∈ args, x.Holds P (bitKey W s) sk B) → ∀ (t : Cpu.Ty) (v : t.Val Bool) (pc r N : Nat) (m : Mem Bool) (b : Regs) (code : Nat → Prop),
        setUpCall mem (callOf (args.map fun x => toArg x.ty x.bits) t) = (m, .ok r) →
        StoredReturns parasol fetchInst N (callState Reg.plain m r pc) b → KeepsCode parasol fetchInst instBytes code N (callState Reg.plain m r pc) →
        OnlyRuns parasol fetchInst (Steady mul) N (callState Reg.plain m r pc) → Seq.Steady parasol (fetchInst (viewOf m)) Inst.key N (callState Reg.plain m r pc) .none →
        returnValue t b.mem r = .ok v →
        ∃ mC bound, setUpCall memC (callOf (args.map fun x => toArg x.ty x.cts) t) = (mC, .ok r) ∧ ∀ ls st, ReachesCtM G P K err limit (callState VReg.plain mC r pc) ls st →
          st.fault = none ∧ ls.length ≤ bound ∧ (st.done ∨ ∃ l st', stepM (isa (ctDom G P K err)) fetchInst (callReg VReg.plain mC.sp r) limit st l = some st') ∧
          (st.done → ∃ vC, returnValue t st.mem r = .ok vC ∧ DecryptsVal P (bitKey W s) sk t v vC ∧ EncArg.Holds P (bitKey W s) sk B ⟨t, v, vC⟩) := by
  obtain ⟨K, k1, k2⟩ := keygen_ok hP hs checked hD
  refine ⟨K, k1, fun err he G hG limit hlim mem memC hmem args hargs t v pc r N m b code hset hret hkeep honly hst hval => ?_⟩
  obtain ⟨s1, s2⟩ := setUpCall_rel (memHolds_rel hmem) (args_rel hargs) t
  rw [hset] at s1 s2
  generalize hmC : setUpCall memC (callOf (args.map fun x => toArg x.ty x.cts) t) = res at s1 s2
  obtain ⟨mC, rC⟩ := res
  simp only at s1 s2
  subst s2
  have ha : ArchRel (fun c b => CtHolds P (bitKey W s) sk B c (ctOf .glwe1 b)) (callState VReg.plain mC r pc) (fromArch (callState Reg.plain m r pc)) :=
    ⟨fun k => by
      show RegRel _ (callReg VReg.plain mC.sp r k) (fromReg (callReg Reg.plain m.sp r k))
      rw [← s1.sp]; exact callReg_rel _ _ _, fun x => byteRel_flip (s1.byte x), rfl⟩
  generalize hAC : callState VReg.plain mC r pc = aC at ha
  rw [← toArch_fromArch (callState Reg.plain m r pc)] at hret hkeep honly hst
  have hview : (fromArch (callState Reg.plain m r pc)).mem = viewOf m := rfl
  obtain ⟨bC, b', t1, t2, t3, t4, t5⟩ := stored_rel (ct_uniform hs k2 he hG hB hb) (Q := Steady mul) (fun i hi vs job rs hj => alu_steady hi hj) (m0 := viewOf m) N ha (fun x _ => congrFun hview x) hret hkeep honly hst
  have hfe : fetchInst (viewOf m) = fetchInst aC.mem := (fetchInst_rel ha.mem).symm
  rw [hfe] at t5
  obtain ⟨r1, r2, r3⟩ := stored_returns fetch_local aC.mem N aC bC (fun _ _ => rfl) t1 t4
  obtain ⟨bound, hbound⟩ := call_schedules hlim r1 t5 r2 r3
  refine ⟨mC, bound, rfl, fun ls st hreach => ?_⟩
  rw [hAC] at hreach
  obtain ⟨c1, c2, c3, c4⟩ := hbound ls st hreach
  have hreg : callReg VReg.plain mC.sp r = aC.reg := by rw [← hAC]; rfl
  refine ⟨c1, c2, by rw [hreg]; exact c3, fun hd => ?_⟩
  · have g2 := c4 hd
    have hrel := returnValue_rel (R := fun b c => CtHolds P (bitKey W s) sk B c (ctOf .glwe1 b)) t (m := b.mem) (m' := st.mem) r fun j _ => by
      rw [g2, t3]; exact byteRel_flip (t2.mem (r + j))
    rw [hval] at hrel
    cases hv : returnValue t st.mem r with
    | error e => rw [hv] at hrel; exact absurd hrel id
    | ok vC =>
      rw [hv] at hrel
      refine ⟨vC, rfl, valRel_mono (fun x y hxy => ?_) t hrel, hrel⟩
      refine held_decrypts hP hs ((holds_iff hP hs.key _ _).1 hxy) ?_
      have : bootLimit W P ν ≤ 2 ^ (W - 2) := Nat.sub_le _ _
      show B < 2 ^ (W - 2)
      omega

theorem holds_uniform {P : EvalParams} {s : List (BitVec W)} {sk : List (List (BitVec W))} {B : Nat} {aC : Arch (VReg (Ct W)) Nat (Option (Byte (Ct W)))} {a : Regs}
    (h : ArchRel (fun c b => CtHolds P s sk B c (ctOf .glwe1 b)) aC (fromArch a)) : HoldsArch P s sk (uniformNoise B a) a aC := by
  have hl : ∀ {cs : List (Ct W)} {bs : List Bool}, List.Forall₂ (fun c b => CtHolds P s sk B c (ctOf .glwe1 b)) cs bs → HoldsV P s sk (.cts (bs.map fun _ => B)) (.cipher bs) (.cts cs) := by
    intro l bs h
    refine ⟨⟨by simp, h.length_eq⟩, fun i n b c hn hb hc => ?_⟩
    obtain ⟨hi, rfl⟩ := List.getElem?_eq_some_iff.1 hb
    obtain ⟨hi', rfl⟩ := List.getElem?_eq_some_iff.1 hc
    rw [List.getElem?_map, hb] at hn
    cases hn
    exact (List.forall₂_iff_get.1 h).2 i hi' hi
  refine ⟨fun r => ?_, fun x => ?_, rfl, h.pc⟩
  · have hr := h.reg r
    simp only [fromArch, uniformNoise] at hr ⊢
    cases hx : a.reg r with
    | plain v w =>
      rw [hx] at hr
      cases hc : aC.reg r with
      | plain v' w' => rw [hc] at hr; obtain ⟨rfl, rfl⟩ := hr; exact ⟨⟨rfl, rfl⟩, rfl, rfl⟩
      | cts l => rw [hc] at hr; exact absurd hr id
    | cipher l =>
      rw [hx] at hr
      cases hc : aC.reg r with
      | plain v' w' => rw [hc] at hr; exact absurd hr id
      | cts l' => rw [hc] at hr; exact hl hr
  · have hm := h.mem x
    simp only [fromArch, uniformNoise] at hm ⊢
    rcases byteRel_cases hm with ⟨h1, h2⟩ | ⟨v, h1, h2⟩ | ⟨l, l', h1, h2, hf⟩
    · rw [h1, h2]; trivial
    · rw [h1, h2]; exact ⟨rfl, rfl⟩
    · rw [h1, h2]; exact hl hf

/-- **C108, any instructions.** As `C108_run_program`, for any program (exclusive or, `cmux` and shifts included) whose noise analysis, started with all ciphertexts of noise `B`, returns (so that no bootstrap may fail) with a return
value of noise below a quarter of the torus. -/
theorem C108_noise {n v : Nat} {P : EvalParams} (hP : ParamsOk W n v P) {ν : NoiseLevels} {s : List Bool} {sk : List (List (BitVec W))} (hs : SecretOk P n ν s sk)
    (checked : Bool) {D : KeyDraws W} (hD : DrawsOk P n ν D) (B : Nat) :
    ∃ K, computeKeyGen checked P (bitKey W s) sk D = some K ∧ ∀ err : FheOp → List (Ct W × FheEdge) → OpErr W, (∀ op ins, ErrOk P n ν.fft (err op ins)) →
      ∀ G : Gens, GensOk G → ∀ (limit : Option Nat), (∀ L, limit = some L → 500000 ≤ L) → ∀ (mem : Mem Bool) (memC : Mem (Ct W)), MemHolds P (bitKey W s) sk B mem memC →
      ∀ (args : List (EncArg W)), (∀ x ∈ args, x.Holds P (bitKey W s) sk B) → ∀ (t : Cpu.Ty) (v : t.Val Bool) (pc r N : Nat) (m : Mem Bool) (b : Regs) (bN : Arch (VReg Nat) Nat (Option (Byte Nat))) (code : Nat → Prop),
        setUpCall mem (callOf (args.map fun x => toArg x.ty x.bits) t) = (m, .ok r) →
        StoredReturns parasol fetchInst N (callState Reg.plain m r pc) b → KeepsCode parasol fetchInst instBytes code N (callState Reg.plain m r pc) →
        Seq.Steady parasol (fetchInst (viewOf m)) Inst.key N (callState Reg.plain m r pc) .none →
        Returns (isa (noiseDom W P ν)) (fetchInst (viewOf m)) N (uniformNoise B (callState Reg.plain m r pc)) bN →
        (∀ j, j < t.size → ∀ l, bN.mem (r + j) = some (.cipher l) → ∀ e ∈ l, e < 2 ^ (W - 2)) → returnValue t b.mem r = .ok v →
        ∃ mC bound, setUpCall memC (callOf (args.map fun x => toArg x.ty x.cts) t) = (mC, .ok r) ∧ ∀ ls st, ReachesCtM G P K err limit (callState VReg.plain mC r pc) ls st →
          st.fault = none ∧ ls.length ≤ bound ∧ (st.done ∨ ∃ l st', stepM (isa (ctDom G P K err)) fetchInst (callReg VReg.plain mC.sp r) limit st l = some st') ∧
          (st.done → ∃ vC, returnValue t st.mem r = .ok vC ∧ DecryptsVal P (bitKey W s) sk t v vC) := by
  obtain ⟨K, k1, k2⟩ := keygen_ok hP hs checked hD
  refine ⟨K, k1, fun err he G hG limit hlim mem memC hmem args hargs t v pc r N m b bN code hset hret hkeep hst hnoise hq hval => ?_⟩
  obtain ⟨s1, s2⟩ := setUpCall_rel (memHolds_rel hmem) (args_rel hargs) t
  rw [hset] at s1 s2
  generalize hmC : setUpCall memC (callOf (args.map fun x => toArg x.ty x.cts) t) = res at s1 s2
  obtain ⟨mC, rC⟩ := res
  simp only at s1 s2
  subst s2
  have ha : ArchRel (fun c b => CtHolds P (bitKey W s) sk B c (ctOf .glwe1 b)) (callState VReg.plain mC r pc) (fromArch (callState Reg.plain m r pc)) :=
    ⟨fun k => by
      show RegRel _ (callReg VReg.plain mC.sp r k) (fromReg (callReg Reg.plain m.sp r k))
      rw [← s1.sp]; exact callReg_rel _ _ _, fun x => byteRel_flip (s1.byte x), rfl⟩
  generalize hAC : callState VReg.plain mC r pc = aC at ha
  have hview : viewOf m = (callState Reg.plain m r pc).mem := rfl
  have hfe : fetchInst (viewOf m) = fetchInst aC.mem := (fetchInst_rel ha.mem).symm
  have hH := holds_uniform ha
  obtain ⟨b1, b2, b3⟩ := stored_returns fetch_local (viewOf m) N _ b (fun _ _ => rfl) hret hkeep
  obtain ⟨b', bC, c1, c2, c3, c4⟩ := ct_returns (err := err) hs k2 he hG hH hnoise
  obtain ⟨_, rfl⟩ := Seq.returns_det c1 b1
  obtain ⟨d1, d2⟩ := ct_path (err := err) hs k2 he hG hH hnoise
  have hplain : ∀ j, j < N → ∀ x ∈ instBytes (T parasol (fetchInst (viewOf m)) (callState Reg.plain m r pc) j).pc, ∃ v, viewOf m x = some (.plain v) := by
    intro j hj
    obtain ⟨i, hi⟩ := returns_fetched N b1 j hj
    exact fetchInst_plain hi
  have c5 := c4 _ hst
  rw [hfe] at c2 c5 d1 d2
  rw [hfe] at b2 b3 hplain
  obtain ⟨bound, hbound⟩ := call_schedules (code := fun x => code x ∧ ∃ v, viewOf m x = some (.plain v)) hlim c2 c5
    (fun j hj x hx => by rw [d1 j hj] at hx; exact ⟨b2 j hj x hx, hplain j hj x hx⟩)
    (fun j hj x hx => by
      obtain ⟨hc, v, hv⟩ := hx
      have h1 := (d2 j hj x v).2 (by rw [b3 j hj x hc]; exact hv)
      rw [h1]
      exact ((byteRel_plain (ha.mem x)).2 hv).symm)
  refine ⟨mC, bound, rfl, fun ls st hreach => ?_⟩
  rw [hAC] at hreach
  obtain ⟨f1, f2, f3, f4⟩ := hbound ls st hreach
  have hreg : callReg VReg.plain mC.sp r = aC.reg := by rw [← hAC]; rfl
  refine ⟨f1, f2, by rw [hreg]; exact f3, fun hd => ?_⟩
  have hrel := returnValue_rel (R := fun b c => CtDecrypts P (bitKey W s) sk c (ctOf .glwe1 b)) t (m := b'.mem) (m' := st.mem) r fun j hj => by
    rw [f4 hd]
    have := decryptsVByte hP hs (c3.mem (r + j)) (hq j hj)
    refine byteRel_flip (R := fun c b => CtDecrypts P (bitKey W s) sk c (ctOf .glwe1 b)) ?_
    unfold DecryptsVByte at this
    unfold ByteRel
    cases hx : bC.mem (r + j) with
    | none =>
      rw [hx] at this
      cases hy : b'.mem (r + j) with
      | none => trivial
      | some y => rw [hy] at this; cases y <;> exact absurd this id
    | some x =>
      rw [hx] at this
      cases hy : b'.mem (r + j) with
      | none => rw [hy] at this; cases x <;> exact absurd this id
      | some y => rw [hy] at this; cases x <;> cases y <;> first | exact absurd this id | exact this
  rw [hval] at hrel
  cases hv : returnValue t st.mem r with
  | error e => rw [hv] at hrel; exact absurd hrel id
  | ok vC => rw [hv] at hrel; exact ⟨vC, rfl, hrel⟩

/-! ### a concrete call: the sum of two encrypted bytes -/

/-- load the two arguments from the stack, add them, store the sum as the return value -/
def exSum : List Inst := [⟨.load, [11, 2, 8, 0]⟩, ⟨.load, [12, 2, 8, 1]⟩, ⟨.add, [13, 11, 12]⟩, ⟨.store, [10, 13, 8, 0]⟩, ⟨.ret, []⟩]

/-- its encoding -/
def exSumWords : List Nat := [8424201, 142642185, 12766529, 8604161, 186]

example : exSum.map Inst.encode = exSumWords.map .ok := by decide +kernel

/-- a program in page 0, the stack in page 1 -/
def callMem {α : Type} (words : List Nat) : Mem α :=
  ⟨fun i => if i = 0 then some (fun o => .plain (BitVec.ofNat 8 (words.getD (o / 8) 0 / 256 ^ (o % 8)))) else if i = 1 then some freshPage else none, 8192⟩

def exSumX : List Bool := [true, false, true, true, false, false, true, false]
def exSumY : List Bool := [true, true, false, false, true, false, false, false]

/-- the call in the clear -/
def exSumCall : CallData Bool := callOf [toArg (.enc 8) exSumX, toArg (.enc 8) exSumY] (.enc 8)

def exSumStart : Regs := callState Reg.plain (setUpCall (callMem exSumWords) exSumCall).1 8178 0

theorem exSum_frame : (setUpCall (callMem exSumWords) exSumCall).2 = .ok 8178 := by decide +kernel

theorem exSum_stored : storedB (fun b => match returnValue (.enc 8) b.mem 8178 with | .ok (v : List Bool) => v == [false, false, false, false, false, true, true, false] | .error _ => false) 64 (straight exSum) exSumStart .none = true := by
  decide +kernel

theorem callMem_holds {P : EvalParams} {s : List (BitVec W)} {sk : List (List (BitVec W))} {B : Nat} (words : List Nat) : MemHolds P s sk B (callMem words) (callMem words : Mem (Ct W)) where
  sp := rfl
  byte := fun x => by
    simp only [viewOf, Mem.load, callMem]
    by_cases h0 : pageId x = 0
    · simp [h0]
    · by_cases h1 : pageId x = 1
      · simp [h1, freshPage]
      · simp [h0, h1]

theorem exSum_only : ∀ p ∈ straight exSum, Steady false p.2 := by
  intro p hp
  simp only [straight, exSum, List.zipIdx_cons, List.zipIdx_nil, List.map_cons, List.map_nil, List.mem_cons, List.not_mem_nil, or_false] at hp
  rcases hp with rfl | rfl | rfl | rfl | rfl <;> exact ⟨by decide, by decide⟩

/-- 77 + 19 = 96: a client sends encryptions of two bytes, the program in memory adds them, under every schedule the return value decrypts to the sum -/
example (err : FheOp → List (Ct 64 × FheEdge) → OpErr 64) (he : ∀ op ins, ErrOk exCtParams 4 exCtLevels.fft (err op ins)) (x y : List (Ct 64))
    (hx : List.Forall₂ (fun b c => CtHolds exCtParams (bitKey 64 [true, true]) exCtSk (10 ^ 18) c (ctOf .glwe1 b)) exSumX x)
    (hy : List.Forall₂ (fun b c => CtHolds exCtParams (bitKey 64 [true, true]) exCtSk (10 ^ 18) c (ctOf .glwe1 b)) exSumY y) :
    ∃ K, computeKeyGen true exCtParams (bitKey 64 [true, true]) exCtSk exCtDraws = some K ∧
      ∃ mC bound, setUpCall (callMem exSumWords) (callOf [toArg (.enc 8) x, toArg (.enc 8) y] (.enc 8)) = (mC, .ok 8178) ∧ ∀ ls st, ReachesCtM exGens exCtParams K err none (callState VReg.plain mC 8178 0) ls st →
        st.fault = none ∧ ls.length ≤ bound ∧ (st.done → ∃ vC, returnValue (.enc 8) st.mem 8178 = .ok vC ∧
          List.Forall₂ (fun b c => CtDecrypts exCtParams (bitKey 64 [true, true]) exCtSk c (ctOf .glwe1 b)) [false, false, false, false, false, true, true, false] vC) := by
  obtain ⟨K, k1, k2⟩ := C108_run_program exCtParams_ok exCtSecret_ok true exCtDraws_ok exSteady_limits.1 exSteady_limits.2
  refine ⟨K, k1, ?_⟩
  have h1 := exSum_frame
  have h2 := exSum_stored
  unfold exSumStart at h2
  have h3 := k2 err he exGens exGens_ok none (by intro L h; cases h) (callMem exSumWords) (callMem exSumWords) (callMem_holds _) [⟨.enc 8, exSumX, x⟩, ⟨.enc 8, exSumY, y⟩]
    (by intro a ha
        simp only [List.mem_cons, List.not_mem_nil, or_false] at ha
        rcases ha with rfl | rfl
        · exact hx
        · exact hy) (.enc 8) [false, false, false, false, false, true, true, false] 0 8178
  change ∀ N m b code, setUpCall (callMem exSumWords) exSumCall = (m, .ok 8178) → _ at h3
  generalize setUpCall (callMem exSumWords) exSumCall = res at h1 h2 h3
  obtain ⟨m, e⟩ := res
  simp only at h1 h2
  subst h1
  obtain ⟨b, b1, b2, b3, b4, b5⟩ := stored_of_B (m0 := viewOf m) (Q := Steady false) (straight exSum) _ _ h2 (fun _ _ => rfl) exSum_only
  obtain ⟨mC, bound, c1, c2⟩ := h3 _ m b _ rfl b1 b3 b5 b4 (by
    cases hv : returnValue (.enc 8) b.mem 8178 with
    | error e => rw [hv] at b2; cases b2
    | ok v => rw [hv] at b2; exact congrArg Except.ok (eq_of_beq (α := List Bool) b2))
  refine ⟨mC, bound, c1, fun ls st hr => ?_⟩
  obtain ⟨d1, d2, _, d4⟩ := c2 ls st hr
  refine ⟨d1, d2, fun hd => ?_⟩
  obtain ⟨vC, e1, e2, _⟩ := d4 hd
  exact ⟨vC, e1, e2⟩

/-- the larger of two encrypted bytes: a comparison and a `cmux` -/
def exMax : List Inst := [⟨.load, [11, 2, 8, 0]⟩, ⟨.load, [12, 2, 8, 1]⟩, ⟨.cmpGt, [13, 11, 12]⟩, ⟨.cmux, [14, 13, 11, 12]⟩, ⟨.store, [10, 14, 8, 0]⟩, ⟨.ret, []⟩]

def exMaxWords : List Nat := [8424201, 142642185, 12766613, 817057473, 8620545, 186]

example : exMax.map Inst.encode = exMaxWords.map .ok := by decide +kernel

def exMaxStart : Regs := callState Reg.plain (setUpCall (callMem exMaxWords) exSumCall).1 8178 0

theorem exMax_frame : (setUpCall (callMem exMaxWords) exSumCall).2 = .ok 8178 := by decide +kernel

theorem exMax_stored : storedB (fun b => match returnValue (.enc 8) b.mem 8178 with | .ok (v : List Bool) => v == exSumX | .error _ => false) 64 (straight exMax) exMaxStart .none = true := by
  decide +kernel

/-- a decidable form of `Returns`, the instructions being `path` -/
def runPath {α : Type} (D : Dom α) (m : VView Bool) : List (Nat × Inst) → Arch (VReg α) Nat (Option (Byte α)) → Option (Arch (VReg α) Nat (Option (Byte α)))
  | [], _ => none
  | (pc, i) :: path, a => if a.pc = pc ∧ fetchInst m pc = .ok i then (match Seq.step (isa D) (fun _ => .ok i) a with
    | .error _ => none
    | .ok (a', true) => if path = [] then some a' else none
    | .ok (a', false) => runPath D m path a') else none

theorem runPath_ok {α : Type} {D : Dom α} {m : VView Bool} : ∀ (path : List (Nat × Inst)) (a b : Arch (VReg α) Nat (Option (Byte α))), runPath D m path a = some b → Returns (isa D) (fetchInst m) path.length a b
  | [], _, _, h => by cases h
  | (pc, i) :: path, a, b, h => by
    unfold runPath at h
    simp only [List.length_cons]
    unfold Returns
    by_cases hc : a.pc = pc ∧ fetchInst m pc = .ok i
    · rw [if_pos hc] at h
      rw [seq_step_congr (isa := isa D) (p := fetchInst m) (p' := fun _ => .ok i) (a := a) (by rw [hc.1, hc.2])]
      cases hst : Seq.step (isa D) (fun _ => .ok i) a with
      | error e => rw [hst] at h; cases h
      | ok r =>
        obtain ⟨a', halted⟩ := r
        rw [hst] at h
        cases halted with
        | true =>
          by_cases hn : path = []
          · simp only [if_pos hn] at h; cases h; exact ⟨by rw [hn]; rfl, rfl⟩
          · simp only [if_neg hn] at h; cases h
        | false => exact runPath_ok path a' b h
    · rw [if_neg hc] at h; cases h

theorem exMax_noise : (runPath (noiseDom 64 exCtParams exCtLevels) (viewOf (setUpCall (callMem exMaxWords) exSumCall).1) (straight exMax) (uniformNoise 1000 exMaxStart)).any
    (fun b => match b.mem 8178 with | some (.cipher l) => l.all fun e => decide (e < 2 ^ 62) | _ => false) = true := by
  decide +kernel

/-- max (77, 19) = 77, on encryptions of noise at most 1000 -/
example (err : FheOp → List (Ct 64 × FheEdge) → OpErr 64) (he : ∀ op ins, ErrOk exCtParams 4 exCtLevels.fft (err op ins)) (x y : List (Ct 64))
    (hx : List.Forall₂ (fun b c => CtHolds exCtParams (bitKey 64 [true, true]) exCtSk 1000 c (ctOf .glwe1 b)) exSumX x)
    (hy : List.Forall₂ (fun b c => CtHolds exCtParams (bitKey 64 [true, true]) exCtSk 1000 c (ctOf .glwe1 b)) exSumY y) :
    ∃ K, computeKeyGen true exCtParams (bitKey 64 [true, true]) exCtSk exCtDraws = some K ∧
      ∃ mC bound, setUpCall (callMem exMaxWords) (callOf [toArg (.enc 8) x, toArg (.enc 8) y] (.enc 8)) = (mC, .ok 8178) ∧ ∀ ls st, ReachesCtM exGens exCtParams K err none (callState VReg.plain mC 8178 0) ls st →
        st.fault = none ∧ ls.length ≤ bound ∧ (st.done → ∃ vC, returnValue (.enc 8) st.mem 8178 = .ok vC ∧
          List.Forall₂ (fun b c => CtDecrypts exCtParams (bitKey 64 [true, true]) exCtSk c (ctOf .glwe1 b)) exSumX vC) := by
  obtain ⟨K, k1, k2⟩ := C108_noise exCtParams_ok exCtSecret_ok true exCtDraws_ok 1000
  refine ⟨K, k1, ?_⟩
  have h1 := exMax_frame
  have h2 := exMax_stored
  have h4 := exMax_noise
  unfold exMaxStart at h2 h4
  have h3 := k2 err he exGens exGens_ok none (by intro L h; cases h) (callMem exMaxWords) (callMem exMaxWords) (callMem_holds _) [⟨.enc 8, exSumX, x⟩, ⟨.enc 8, exSumY, y⟩]
    (by intro a ha
        simp only [List.mem_cons, List.not_mem_nil, or_false] at ha
        rcases ha with rfl | rfl
        · exact hx
        · exact hy) (.enc 8) exSumX 0 8178
  change ∀ N m b bN code, setUpCall (callMem exMaxWords) exSumCall = (m, .ok 8178) → _ at h3
  generalize setUpCall (callMem exMaxWords) exSumCall = res at h1 h2 h3 h4
  obtain ⟨m, e⟩ := res
  simp only at h1 h2 h4
  subst h1
  obtain ⟨b, b1, b2, b3, b4, _⟩ := stored_of_B (m0 := viewOf m) (Q := fun _ => True) (straight exMax) _ _ h2 (fun _ _ => rfl) (fun _ _ => trivial)
  cases hn : runPath (noiseDom 64 exCtParams exCtLevels) (viewOf m) (straight exMax) (uniformNoise 1000 (callState Reg.plain m 8178 0)) with
  | none => rw [hn] at h4; cases h4
  | some bN =>
    rw [hn] at h4
    simp only [Option.any_some] at h4
    obtain ⟨mC, bound, c1, c2⟩ := h3 _ m b bN _ rfl b1 b3 b4 (runPath_ok _ _ _ hn) (by
      intro j hj l hl e he
      have hj : j < 1 := hj
      obtain rfl : j = 0 := by omega
      rw [Nat.add_zero] at hl
      rw [hl] at h4
      simpa using List.all_eq_true.1 h4 e he) (by
      cases hv : returnValue (.enc 8) b.mem 8178 with
      | error e => rw [hv] at b2; cases b2
      | ok v => rw [hv] at b2; exact congrArg Except.ok (eq_of_beq (α := List Bool) b2))
    exact ⟨mC, bound, c1, fun ls st hr => have h := c2 ls st hr; ⟨h.1, h.2.1, h.2.2.2⟩⟩

end Spf.Props
