import Verif.Props.RunProgram
import Verif.Spec.Calls
/-! C119: several calls on the same memory, results passed on. -/
namespace Spf.Props
open Spf.Cpu hiding fetchInst
open Spf.Spec hiding Ty
open Spf.Fhe Spf.Fluent Spf.Tfhe Spf.CtExec Spf.Cells Spf.Machine Spf.CtCpu
open Spf.Seq (Arch Returns StoredReturns KeepsCode OnlyRuns Slow)

variable {W : Nat}

/-- Calls on ciphertexts, one after the other on the same computer and memory: the frame of each call can be set up; under every schedule `ls` there is no fault, the number of steps is bounded, and the run is over or can be continued; when it is over the result can be
read, and with whichever ciphertexts the memory and the result then consist of, the remaining calls do the same. In the end the results satisfy `ok`. -/
def EveryRun (G : Gens) (P : EvalParams) (K : EvalKey W) (err : FheOp → List (Ct W × FheEdge) → OpErr W) (limit : Option Nat) (ok : List (AnyVal (Ct W)) → Prop) :
    List (ACall W) → Mem (Ct W) → List (AnyVal (Ct W)) → Prop
  | [], _, h => ok h
  | c :: cs, mem, h => ∃ m r bound, setUpCall mem (callOf (callArgs (c.args.map (Source.cipher h))) c.ret) = (m, .ok r) ∧
      ∀ ls st, ReachesCtM G P K err limit (callState VReg.plain m r c.pc) ls st → st.fault = none ∧ ls.length ≤ bound ∧
        (st.done ∨ ∃ l st', stepM (isa (ctDom G P K err)) fetchInst (callReg VReg.plain m.sp r) limit st l = some st') ∧
        (st.done → ∃ v, returnValue c.ret st.mem r = .ok v ∧ EveryRun G P K err limit ok cs (m.after st.mem) (h ++ [⟨c.ret, v⟩]))

theorem viewOf_after {α : Type} (m : Mem α) (v : VView α) (x : Nat) : viewOf (m.after v) x = (m.pages (pageId x)).map fun pg => (v (4096 * pageId x + pageOff x)).getD (pg (pageOff x)) := by
  unfold viewOf Mem.load Mem.after
  simp only
  cases m.pages (pageId x) <;> rfl

/-- the memory after a run of related memories -/
theorem after_rel {α β : Type} {R : α → β → Prop} {m : Mem α} {m' : Mem β} (h : MemRel R m m') {v : VView α} {v' : VView β} (hv : ∀ x, ByteRel R (v x) (v' x)) : MemRel R (m.after v) (m'.after v') where
  sp := h.sp
  byte := fun x => by
    rw [viewOf_after, viewOf_after]
    have hx := h.byte x
    unfold viewOf Mem.load at hx
    cases hp : m.pages (pageId x) with
    | none =>
      cases hp' : m'.pages (pageId x) with
      | none => trivial
      | some pg' => rw [hp, hp'] at hx; exact absurd hx id
    | some pg =>
      cases hp' : m'.pages (pageId x) with
      | none => rw [hp, hp'] at hx; simp only at hx; cases hb : pg (pageOff x) <;> rw [hb] at hx <;> exact absurd hx id
      | some pg' =>
        rw [hp, hp'] at hx
        simp only [Option.map_some]
        rcases byteRel_cases (hv (4096 * pageId x + pageOff x)) with ⟨h1, h2⟩ | ⟨b, h1, h2⟩ | ⟨l, l', h1, h2, hl⟩
        · rw [h1, h2]; exact hx
        · rw [h1, h2]; exact rfl
        · rw [h1, h2]; exact hl

/-- one call, with the memory it leaves -/
theorem call_mem {n v : Nat} {P : EvalParams} {ν : NoiseLevels} {s : List Bool} {sk : List (List (BitVec W))} (hs : SecretOk P n ν s sk)
    {mul : Bool} {B : Nat} (hB : steadyNoise W P ν mul ≤ B) (hb : B + ksNoise W P ν < bootLimit W P ν) {K : EvalKey W} (hK : Setting W n v P s sk ν K)
    {err : FheOp → List (Ct W × FheEdge) → OpErr W} (he : ∀ op ins, ErrOk P n ν.fft (err op ins)) {G : Gens} (hG : GensOk G) {limit : Option Nat} (hlim : ∀ L, limit = some L → 500000 ≤ L)
    {mem : Mem Bool} {memC : Mem (Ct W)} (hmem : MemRel (fun b c => CtHolds P (bitKey W s) sk B c (ctOf .glwe1 b)) mem memC)
    {l : List (Arg Bool)} {l' : List (Arg (Ct W))} (hl : List.Forall₂ (ArgRel fun b c => CtHolds P (bitKey W s) sk B c (ctOf .glwe1 b)) l l')
    {t : Cpu.Ty} {v : t.Val Bool} {pc r N : Nat} {m : Mem Bool} {b : Regs} {code : Nat → Prop}
    (hset : setUpCall mem (callOf l t) = (m, .ok r))
    (hret : StoredReturns parasol fetchInst N (callState Reg.plain m r pc) b) (hkeep : KeepsCode parasol fetchInst instBytes code N (callState Reg.plain m r pc))
    (honly : OnlyRuns parasol fetchInst (Steady mul) N (callState Reg.plain m r pc)) (hst : Seq.Steady parasol (fetchInst (viewOf m)) Inst.key N (callState Reg.plain m r pc) .none)
    (hval : returnValue t b.mem r = .ok v) :
    ∃ mC bound, setUpCall memC (callOf l' t) = (mC, .ok r) ∧ MemRel (fun b c => CtHolds P (bitKey W s) sk B c (ctOf .glwe1 b)) m mC ∧
      ∀ ls st, ReachesCtM G P K err limit (callState VReg.plain mC r pc) ls st →
        st.fault = none ∧ ls.length ≤ bound ∧ (st.done ∨ ∃ l st', stepM (isa (ctDom G P K err)) fetchInst (callReg VReg.plain mC.sp r) limit st l = some st') ∧
        (st.done → (∀ x, ByteRel (fun b c => CtHolds P (bitKey W s) sk B c (ctOf .glwe1 b)) (b.mem x) (st.mem x)) ∧
          ∃ vC, returnValue t st.mem r = .ok vC ∧ ValRel (fun b c => CtHolds P (bitKey W s) sk B c (ctOf .glwe1 b)) t v vC) := by
  obtain ⟨s1, s2⟩ := setUpCall_rel hmem hl t
  rw [hset] at s1 s2
  generalize hmC : setUpCall memC (callOf l' t) = res at s1 s2
  obtain ⟨mC, rC⟩ := res
  simp only at s1 s2
  subst s2
  have ha : ArchRel (fun c b => CtHolds P (bitKey W s) sk B c (ctOf .glwe1 b)) (callState VReg.plain mC r pc) (fromArch (callState Reg.plain m r pc)) :=
    ⟨fun k => by
      show RegRel _ (callReg VReg.plain mC.sp r k) (fromReg (callReg Reg.plain m.sp r k))
      rw [← s1.sp]; exact callReg_rel _ _ _, fun x => byteRel_flip (s1.byte x), rfl⟩
  generalize hAC : callState VReg.plain mC r pc = aC at ha
  rw [← toArch_fromArch (callState Reg.plain m r pc)] at hret hkeep honly hst
  have hview : (fromArch (callState Reg.plain m r pc)).mem = viewOf m := rfl
  obtain ⟨bC, b', t1, t2, t3, t4, t5⟩ := stored_rel (ct_uniform hs hK he hG hB hb) (Q := Steady mul) (fun i hi vs job rs hj => alu_steady hi hj) (m0 := viewOf m) N ha (fun x _ => congrFun hview x) hret hkeep honly hst
  have hfe : fetchInst (viewOf m) = fetchInst aC.mem := (fetchInst_rel ha.mem).symm
  rw [hfe] at t5
  obtain ⟨r1, r2, r3⟩ := stored_returns fetch_local aC.mem N aC bC (fun _ _ => rfl) t1 t4
  obtain ⟨bound, hbound⟩ := call_schedules hlim r1 t5 r2 r3
  refine ⟨mC, bound, rfl, s1, fun ls st hreach => ?_⟩
  rw [hAC] at hreach
  obtain ⟨c1, c2, c3, c4⟩ := hbound ls st hreach
  have hreg : callReg VReg.plain mC.sp r = aC.reg := by rw [← hAC]; rfl
  refine ⟨c1, c2, by rw [hreg]; exact c3, fun hd => ?_⟩
  have g2 := c4 hd
  have hby : ∀ x, ByteRel (fun b c => CtHolds P (bitKey W s) sk B c (ctOf .glwe1 b)) (b.mem x) (st.mem x) := fun x => by
    rw [g2, t3]; exact byteRel_flip (t2.mem x)
  refine ⟨hby, ?_⟩
  have hrel := returnValue_rel (R := fun b c => CtHolds P (bitKey W s) sk B c (ctOf .glwe1 b)) t (m := b.mem) (m' := st.mem) r fun j _ => hby (r + j)
  rw [hval] at hrel
  cases hv : returnValue t st.mem r with
  | error e => rw [hv] at hrel; exact absurd hrel id
  | ok vC => rw [hv] at hrel; exact ⟨vC, rfl, hrel⟩

/-- related values of the same type -/
def AnyRel {α β : Type} (R : α → β → Prop) (v : AnyVal α) (c : AnyVal β) : Prop := ∃ (t : Cpu.Ty) (x : t.Val α) (y : t.Val β), v = ⟨t, x⟩ ∧ c = ⟨t, y⟩ ∧ ValRel R t x y

theorem source_rel {P : EvalParams} {s : List (BitVec W)} {sk : List (List (BitVec W))} {B : Nat} {h : List (AnyVal Bool)} {hC : List (AnyVal (Ct W))}
    (hh : List.Forall₂ (AnyRel fun b c => CtHolds P s sk B c (ctOf .glwe1 b)) h hC) {x : Source W} (hx : ∀ a, x = .fresh a → a.Holds P s sk B) :
    AnyRel (fun b c => CtHolds P s sk B c (ctOf .glwe1 b)) (x.clear h) (x.cipher hC) := by
  cases x with
  | fresh a => exact ⟨a.ty, a.bits, a.cts, rfl, rfl, hx a rfl⟩
  | result i =>
    simp only [Source.clear, Source.cipher]
    by_cases hi : i < h.length
    · have hi' : i < hC.length := by rw [← hh.length_eq]; exact hi
      rw [List.getD_eq_getElem?_getD, List.getD_eq_getElem?_getD, List.getElem?_eq_getElem hi, List.getElem?_eq_getElem hi']
      exact (List.forall₂_iff_get.1 hh).2 i hi hi'
    · have hi' : ¬ i < hC.length := by rw [← hh.length_eq]; exact hi
      rw [List.getD_eq_getElem?_getD, List.getD_eq_getElem?_getD, List.getElem?_eq_none (by omega), List.getElem?_eq_none (by omega)]
      exact ⟨.unit, (), (), rfl, rfl, trivial⟩

theorem callArgs_rel {P : EvalParams} {s : List (BitVec W)} {sk : List (List (BitVec W))} {B : Nat} {h : List (AnyVal Bool)} {hC : List (AnyVal (Ct W))}
    (hh : List.Forall₂ (AnyRel fun b c => CtHolds P s sk B c (ctOf .glwe1 b)) h hC) : ∀ {l : List (Source W)}, (∀ x ∈ l, ∀ a, x = .fresh a → a.Holds P s sk B) →
    List.Forall₂ (ArgRel fun b c => CtHolds P s sk B c (ctOf .glwe1 b)) (callArgs (l.map (Source.clear h))) (callArgs (l.map (Source.cipher hC)))
  | [], _ => .nil
  | x :: l, hl => by
    refine .cons ?_ (callArgs_rel hh fun y hy => hl y (by simp [hy]))
    obtain ⟨t, u, w, h1, h2, h3⟩ := source_rel hh (hl x (by simp))
    show ArgRel _ (toArg (x.clear h).ty (x.clear h).val) (toArg (x.cipher hC).ty (x.cipher hC).val)
    rw [h1, h2]
    exact ⟨rfl, toBytes_rel t h3⟩

/-- **C119.** Generate keys; take `B` at least the noise of the deepest circuit and below the bootstrapping limit after a keyswitch. A client makes any number of calls, one after the other on the same memory, of programs in memory, whose arguments are encryptions (or plaintexts) of its own, of
noise at most `B`, or results of earlier calls; what an earlier call left in memory stays there for the later ones. If the calls in the clear succeed with the results `res`, and only run instructions other than exclusive or, `cmux` and shifts (and multiplication, unless `mul`), then on
ciphertexts, whichever schedule the processor follows in each call, every call frame is set up, there is no fault, every run ends, and in the end the results decrypt to `res`: no number of calls exhausts the noise budget. -/
theorem C119_calls {n v : Nat} {P : EvalParams} (hP : ParamsOk W n v P) {ν : NoiseLevels} {s : List Bool} {sk : List (List (BitVec W))} (hs : SecretOk P n ν s sk)
    (checked : Bool) {D : KeyDraws W} (hD : DrawsOk P n ν D) {mul : Bool} {B : Nat} (hB : steadyNoise W P ν mul ≤ B) (hb : B + ksNoise W P ν < bootLimit W P ν) :
    ∃ K, computeKeyGen checked P (bitKey W s) sk D = some K ∧ ∀ err : FheOp → List (Ct W × FheEdge) → OpErr W, (∀ op ins, ErrOk P n ν.fft (err op ins)) →
      ∀ G : Gens, GensOk G → ∀ (limit : Option Nat), (∀ L, limit = some L → 500000 ≤ L) → ∀ (mem : Mem Bool) (memC : Mem (Ct W)), MemHolds P (bitKey W s) sk B mem memC →
      ∀ calls : List (ACall W), (∀ c ∈ calls, ∀ a, Source.fresh a ∈ c.args → a.Holds P (bitKey W s) sk B) → ∀ res : List (AnyVal Bool), ClearCalls (Steady mul) mem [] calls res →
        EveryRun G P K err limit (fun resC => List.Forall₂ (DecryptsAny P (bitKey W s) sk) res resC) calls memC [] := by
  obtain ⟨K, k1, k2⟩ := keygen_ok hP hs checked hD
  refine ⟨K, k1, fun err he G hG limit hlim mem memC hmem calls hargs res hcl => ?_⟩
  have hdec : ∀ (x : Bool) (y : Ct W), CtHolds P (bitKey W s) sk B y (ctOf .glwe1 x) → CtDecrypts P (bitKey W s) sk y (ctOf .glwe1 x) := fun x y hxy => by
    refine held_decrypts hP hs ((holds_iff hP hs.key _ _).1 hxy) ?_
    have : bootLimit W P ν ≤ 2 ^ (W - 2) := Nat.sub_le _ _
    show B < 2 ^ (W - 2)
    omega
  suffices H : ∀ {mem : Mem Bool} {h : List (AnyVal Bool)} {calls : List (ACall W)} {res : List (AnyVal Bool)}, ClearCalls (Steady mul) mem h calls res →
      ∀ {memC : Mem (Ct W)} {hC : List (AnyVal (Ct W))}, MemRel (fun b c => CtHolds P (bitKey W s) sk B c (ctOf .glwe1 b)) mem memC → List.Forall₂ (AnyRel fun b c => CtHolds P (bitKey W s) sk B c (ctOf .glwe1 b)) h hC →
      (∀ c ∈ calls, ∀ a, Source.fresh a ∈ c.args → a.Holds P (bitKey W s) sk B) →
      EveryRun G P K err limit (fun resC => List.Forall₂ (DecryptsAny P (bitKey W s) sk) res resC) calls memC hC from H hcl (memHolds_rel hmem) .nil hargs
  intro mem h calls res hcl
  induction hcl with
  | nil =>
    intro memC hC _ hh _
    exact hh.imp fun v c ⟨t, x, y, e1, e2, e3⟩ => ⟨t, x, y, e1, e2, valRel_mono hdec t e3⟩
  | cons h1 h2 h3 h4 h5 h6 _ ih =>
    intro memC hC hm hh hA
    obtain ⟨mC, bound, c1, c2, c3⟩ := call_mem hs hB hb k2 he hG hlim hm (callArgs_rel hh fun x hx a hxa => hA _ (by simp) a (hxa ▸ hx)) h1 h2 h3 h4 h5 h6
    refine ⟨mC, _, bound, c1, fun ls st hr => ?_⟩
    obtain ⟨d1, d2, d3, d4⟩ := c3 ls st hr
    refine ⟨d1, d2, d3, fun hd => ?_⟩
    obtain ⟨e1, vC, e2, e3⟩ := d4 hd
    exact ⟨vC, e2, ih (after_rel c2 e1) (List.rel_append hh (.cons ⟨_, _, _, rfl, rfl, e3⟩ .nil)) fun c hc => hA c (by simp [hc])⟩

/-! ### the memory a call leaves -/

theorem addr_split {x : Nat} (hx : x < 2 ^ 32) : 4096 * pageId x + pageOff x = x := by
  unfold pageId pageOff
  have h1 : (x &&& 0xFFFFF000) >>> 12 = x / 2 ^ 12 := by
    apply Nat.eq_of_testBit_eq
    intro i
    rw [Nat.testBit_shiftRight, Nat.testBit_and, Nat.testBit_div_two_pow]
    have hm : Nat.testBit 0xFFFFF000 (12 + i) = decide (i < 20) := by
      rw [show (0xFFFFF000 : Nat) = (2 ^ 20 - 1) * 2 ^ 12 by norm_num, Nat.testBit_mul_two_pow, Nat.add_sub_cancel_left, Nat.testBit_two_pow_sub_one]
      simp
    rw [hm, Nat.add_comm 12 i]
    by_cases hi : i < 20
    · simp [hi]
    · have : x < 2 ^ (i + 12) := lt_of_lt_of_le hx (Nat.pow_le_pow_right (by norm_num) (by omega))
      simp [Nat.testBit_lt_two_pow this]
  have h2 : x &&& 0xFFF = x % 2 ^ 12 := by rw [show (0xFFF : Nat) = 2 ^ 12 - 1 by norm_num, Nat.and_two_pow_sub_one_eq_mod]
  rw [h1, h2]
  omega

/-- when the run maps and unmaps nothing, the memory object afterwards has the contents of the run -/
theorem after_view {α : Type} {m : Mem α} {v : VView α} (h : ∀ x, (v x).isSome = (viewOf m x).isSome) {x : Nat} (hx : x < 2 ^ 32) : viewOf (m.after v) x = v x := by
  rw [viewOf_after, addr_split hx]
  have := h x
  unfold viewOf Mem.load at this
  cases hp : m.pages (pageId x) with
  | none => rw [hp] at this; simp only [Option.map_none]; cases hv : v x with
    | none => rfl
    | some y => rw [hv] at this; cases this
  | some pg => rw [hp] at this; simp only [Option.map_some]; cases hv : v x with
    | none => rw [hv] at this; cases this
    | some y => rfl

theorem storeBytes_isSome {α : Type} {r : VReg α} (x : Nat) : ∀ (l : List Nat) (i : Nat) {m m' : VView α}, CtCpu.storeBytes r l i m = .ok m' → (m' x).isSome = (m x).isSome
  | [], _, _, _, h => by cases h; rfl
  | a :: l, i, m, m', h => by
    unfold CtCpu.storeBytes at h
    cases hb : storeByte r i with
    | error e => rw [hb] at h; cases h
    | ok b =>
      rw [hb] at h
      simp only at h
      cases hm : m a with
      | none => rw [hm] at h; cases h
      | some y =>
        rw [hm] at h
        rw [storeBytes_isSome x l (i + 1) h]
        by_cases hx : x = a
        · simp [hx, hm]
        · simp [hx]

theorem exec_isSome {α : Type} {D : Dom α} {i : Inst} {vs : List (VReg α)} {m m' : VView α} {o : List (VReg α)} (h : CtCpu.exec D i vs m = .ok (o, m')) (x : Nat) : (m' x).isSome = (m x).isSome := by
  unfold CtCpu.exec at h
  split at h
  · cases hl : span (vs.map VReg.shape) (i.nat 2) (i.arg 3) with
    | error e => rw [hl] at h; cases h
    | ok l =>
      rw [hl] at h
      simp only at h
      cases hr : CtCpu.loadReg m (i.nat 2) l with
      | error e => rw [hr] at h; cases h
      | ok r => rw [hr] at h; cases h; rfl
  · by_cases hn : i.nat 0 = i.nat 1
    · rw [if_pos hn] at h; cases h
    · rw [if_neg hn] at h
      cases hl : span (vs.map VReg.shape) (i.nat 2) (i.arg 3) with
      | error e => rw [hl] at h; cases h
      | ok l =>
        rw [hl] at h
        simp only at h
        cases hr : CtCpu.storeBytes (vs.getD 1 (.plain 0 32)) l 0 m with
        | error e => rw [hr] at h; cases h
        | ok r => rw [hr] at h; cases h; exact storeBytes_isSome x l 0 hr
  · cases hr : CtCpu.alu D i vs with
    | error e => rw [hr] at h; cases h
    | ok r => rw [hr] at h; cases h; rfl

theorem stored_isSome {α : Type} {D : Dom α} (x : Nat) : ∀ (n : Nat) {a b : Arch (VReg α) Nat (Option (Byte α))}, StoredReturns (isa D) fetchInst n a b → (b.mem x).isSome = (a.mem x).isSome
  | 0, _, _, h => absurd h id
  | n + 1, a, b, h => by
    have hstep : ∀ a' halted, Seq.step (isa D) (fetchInst a.mem) a = .ok (a', halted) → (a'.mem x).isSome = (a.mem x).isSome := by
      intro a' halted hs
      unfold Seq.step at hs
      cases hi : fetchInst a.mem a.pc with
      | error e => rw [hi] at hs; cases hs
      | ok i =>
        rw [hi] at hs
        simp only at hs
        unfold Seq.effect at hs
        simp only at hs
        cases hacc : (isa D).access i (((isa D).srcs i).map a.reg) with
        | error e => rw [hacc] at hs; cases hs
        | ok l =>
          rw [hacc] at hs
          simp only at hs
          cases hex : (isa D).exec i (((isa D).srcs i).map a.reg) a.mem with
          | error e => rw [hex] at hs; cases hs
          | ok p =>
            obtain ⟨o, mm⟩ := p
            rw [hex] at hs
            simp only at hs
            have hm := exec_isSome (show CtCpu.exec D i _ a.mem = .ok (o, mm) from hex) x
            cases hn : (isa D).next i a.pc (((isa D).srcs i).map a.reg) with
            | ok pc => rw [hn] at hs; cases hs; exact hm
            | error e => rw [hn] at hs; cases e <;> cases hs <;> exact hm
    unfold StoredReturns at h
    cases hs : Seq.step (isa D) (fetchInst a.mem) a with
    | error e => rw [hs] at h; exact absurd h id
    | ok q =>
      obtain ⟨a', halted⟩ := q
      rw [hs] at h
      cases halted with
      | true => rw [h.2]; exact hstep a' true hs
      | false => rw [stored_isSome x n h]; exact hstep a' false hs

/-- **C119, the memory between calls.** When a called program returns (here on any contents, ciphertexts or bits, one instruction after the other), the caller's memory holds what the run left at every 32-bit address, and is mapped where it was; the stack pointer is where the call put it. -/
theorem C119_memory {α : Type} (D : Dom α) (plain : Nat → Nat → VReg α) (m : Mem α) (r pc N : Nat) (b : Arch (VReg α) Nat (Option (Byte α)))
    (h : StoredReturns (isa D) fetchInst N (callState plain m r pc) b) : (m.after b.mem).sp = m.sp ∧ ∀ x, x < 2 ^ 32 → viewOf (m.after b.mem) x = b.mem x ∧ (b.mem x).isSome = (viewOf m x).isSome :=
  ⟨rfl, fun x hx => ⟨after_view (fun y => stored_isSome y N h) hx, stored_isSome x N h⟩⟩

/-- a decidable form of `StoredReturns` -/
def storedPath {α : Type} (D : Dom α) : List (Nat × Inst) → Arch (VReg α) Nat (Option (Byte α)) → Bool
  | [], _ => false
  | (pc, i) :: path, a => decide (a.pc = pc) && decide (fetchInst a.mem pc = .ok i) && (match Seq.step (isa D) (fun _ => .ok i) a with
    | .error _ => false
    | .ok (_, true) => path.isEmpty
    | .ok (a', false) => storedPath D path a')

theorem storedPath_ok {α : Type} {D : Dom α} : ∀ (path : List (Nat × Inst)) (a : Arch (VReg α) Nat (Option (Byte α))), storedPath D path a = true → ∃ b, StoredReturns (isa D) fetchInst path.length a b
  | [], _, h => by cases h
  | (pc, i) :: path, a, h => by
    unfold storedPath at h
    simp only [Bool.and_eq_true, decide_eq_true_eq] at h
    obtain ⟨⟨rfl, h1⟩, h2⟩ := h
    simp only [List.length_cons]
    unfold StoredReturns
    rw [seq_step_congr (isa := isa D) (p := fetchInst a.mem) (p' := fun _ => .ok i) (a := a) h1]
    cases hst : Seq.step (isa D) (fun _ => .ok i) a with
    | error e => rw [hst] at h2; cases h2
    | ok r =>
      obtain ⟨a', halted⟩ := r
      rw [hst] at h2
      cases halted with
      | true => exact ⟨a', by rw [List.isEmpty_iff.1 h2]; rfl, rfl⟩
      | false => exact storedPath_ok path a' h2

theorem exSum_path : storedPath bitDom (straight exSum) (callState VReg.plain (setUpCall (callMem exSumWords) exSumCall).1 8178 0) = true := by decide +kernel

example : ∃ b : Arch (VReg Bool) Nat (Option (Byte Bool)), StoredReturns (isa bitDom) fetchInst (straight exSum).length (callState VReg.plain (setUpCall (callMem exSumWords) exSumCall).1 8178 0) b := by
  have h := exSum_path
  generalize callState VReg.plain (setUpCall (callMem exSumWords) exSumCall).1 8178 0 = a at h ⊢
  generalize straight exSum = path at h ⊢
  exact storedPath_ok _ _ h

/-! ### a concrete session: the sum of two encrypted bytes, then the sum of the result and one of them -/

/-- a decidable form of one call of `ClearCalls`, returning an encrypted byte; `k` examines the memory it leaves -/
def callB (path : List (Nat × Inst)) (mem : Mem Bool) (args : List (AnyVal Bool)) (pc : Nat) (v : List Bool) (k : Mem Bool → Bool) : Bool :=
  match setUpCall mem (callOf (callArgs args) (.enc 8)) with
  | (_, .error _) => false
  | (m, .ok r) => storedB (fun b => match returnValue (.enc 8) b.mem r with
    | .error _ => false
    | .ok (x : List Bool) => x == v && k (m.after b.mem)) 64 path (callState Reg.plain m r pc) .none

theorem clear_of_B {Q : Inst → Prop} {path : List (Nat × Inst)} {mem : Mem Bool} {args : List (AnyVal Bool)} {pc : Nat} {v : List Bool} {k : Mem Bool → Bool} {src : List (Source W)} {h h' : List (AnyVal Bool)} {cs : List (ACall W)}
    (hB : callB path mem args pc v k = true) (hQ : ∀ p ∈ path, Q p.2) (ha : src.map (Source.clear h) = args)
    (hk : ∀ m, k m = true → ClearCalls Q m (h ++ [⟨.enc 8, v⟩]) cs h') : ClearCalls Q mem h (⟨pc, src, .enc 8⟩ :: cs) h' := by
  unfold callB at hB
  rw [← ha] at hB
  cases hset : setUpCall mem (callOf (callArgs (src.map (Source.clear h))) (.enc 8)) with
  | mk m e =>
    rw [hset] at hB
    cases e with
    | error e => cases hB
    | ok r =>
      obtain ⟨b, b1, b2, b3, b4, b5⟩ := stored_of_B (m0 := viewOf m) (Q := Q) path _ _ hB (fun _ _ => rfl) hQ
      cases hv : returnValue (.enc 8) b.mem r with
      | error e => rw [hv] at b2; cases b2
      | ok x =>
        rw [hv] at b2
        simp only [Bool.and_eq_true] at b2
        obtain ⟨g1, g2⟩ := b2
        obtain rfl : x = v := eq_of_beq (α := List Bool) g1
        exact ClearCalls.cons (c := ⟨pc, src, .enc 8⟩) hset b1 b3 b5 b4 hv (hk _ g2)

theorem exTwo_calls : callB (straight exSum) (callMem exSumWords) [⟨.enc 8, exSumX⟩, ⟨.enc 8, exSumY⟩] 0 [false, false, false, false, false, true, true, false]
    (fun m => callB (straight exSum) m [⟨.enc 8, [false, false, false, false, false, true, true, false]⟩, ⟨.enc 8, exSumX⟩] 0 [true, false, true, true, false, true, false, true] fun _ => true) = true := by
  decide +kernel

/-- 77 + 19 = 96, 96 + 77 = 173: the second call takes the encrypted result of the first -/
example (err : FheOp → List (Ct 64 × FheEdge) → OpErr 64) (he : ∀ op ins, ErrOk exCtParams 4 exCtLevels.fft (err op ins)) (x y : List (Ct 64))
    (hx : List.Forall₂ (fun b c => CtHolds exCtParams (bitKey 64 [true, true]) exCtSk (10 ^ 18) c (ctOf .glwe1 b)) exSumX x)
    (hy : List.Forall₂ (fun b c => CtHolds exCtParams (bitKey 64 [true, true]) exCtSk (10 ^ 18) c (ctOf .glwe1 b)) exSumY y) :
    ∃ K, computeKeyGen true exCtParams (bitKey 64 [true, true]) exCtSk exCtDraws = some K ∧
      EveryRun exGens exCtParams K err none (fun resC => List.Forall₂ (DecryptsAny exCtParams (bitKey 64 [true, true]) exCtSk)
          [⟨.enc 8, [false, false, false, false, false, true, true, false]⟩, ⟨.enc 8, [true, false, true, true, false, true, false, true]⟩] resC)
        [⟨0, [.fresh ⟨.enc 8, exSumX, x⟩, .fresh ⟨.enc 8, exSumY, y⟩], .enc 8⟩, ⟨0, [.result 0, .fresh ⟨.enc 8, exSumX, x⟩], .enc 8⟩] (callMem exSumWords) [] := by
  obtain ⟨K, k1, k2⟩ := C119_calls exCtParams_ok exCtSecret_ok true exCtDraws_ok exSteady_limits.1 exSteady_limits.2
  refine ⟨K, k1, k2 err he exGens exGens_ok none (by intro L h; cases h) (callMem exSumWords) (callMem exSumWords) (callMem_holds _) _ ?_ _ ?_⟩
  · intro c hc a ha
    simp only [List.mem_cons, List.not_mem_nil, or_false] at hc
    rcases hc with rfl | rfl
    · simp only [List.mem_cons, List.not_mem_nil, or_false, Source.fresh.injEq] at ha
      rcases ha with rfl | rfl
      · exact hx
      · exact hy
    · simp only [List.mem_cons, List.not_mem_nil, or_false, Source.fresh.injEq, reduceCtorEq, false_or] at ha
      subst ha
      exact hx
  · exact clear_of_B exTwo_calls exSum_only rfl fun m hm => clear_of_B hm exSum_only rfl fun _ _ => .nil

end Spf.Props
