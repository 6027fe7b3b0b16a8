import Verif.Props.Calls
import Verif.Spec.CallsNoise
/-! C119 for any instructions, given an analysis of the noise. -/
namespace Spf.Props
open Spf.Cpu hiding fetchInst
open Spf.Spec hiding Ty
open Spf.Fhe Spf.Fluent Spf.Tfhe Spf.CtExec Spf.Cells Spf.Machine Spf.CtCpu
open Spf.Seq (Arch Returns StoredReturns KeepsCode OnlyRuns Slow)

variable {W : Nat}

/-- a byte whose noise is at most `B` -/
theorem holdsVByte_bound {n v : Nat} {P : EvalParams} (hP : ParamsOk W n v P) {ν : NoiseLevels} {s : List Bool} {sk : List (List (BitVec W))} (hs : SecretOk P n ν s sk) {B : Nat}
    {x : Option (Byte Nat)} {b : Option (Byte Bool)} {c : Option (Byte (Ct W))} (h : HoldsVByte P (bitKey W s) sk x b c) (hq : ∀ l, x = some (.cipher l) → ∀ e ∈ l, e ≤ B) :
    ByteRel (fun b c => CtHolds P (bitKey W s) sk B c (ctOf .glwe1 b)) b c := by
  match x, b, c, h, hq with
  | none, none, none, _, _ => trivial
  | some (.plain x), some (.plain _), some (.plain _), ⟨rfl, rfl⟩, _ => exact rfl
  | some (.cipher ns), some (.cipher bs), some (.cipher cs), ⟨⟨h1, h2⟩, h3⟩, hq =>
    refine List.forall₂_iff_get.2 ⟨h2.symm, fun i hi hi' => ?_⟩
    have hn : i < ns.length := by omega
    exact holds_mono hP hs.key (hq ns rfl _ (List.getElem_mem hn)) (h3 i _ _ _ (List.getElem?_eq_getElem hn) (List.getElem?_eq_getElem hi) (List.getElem?_eq_getElem hi'))

/-- one call, with the memory it leaves and the noise in it -/
theorem call_noise {n v : Nat} {P : EvalParams} (hP : ParamsOk W n v P) {ν : NoiseLevels} {s : List Bool} {sk : List (List (BitVec W))} (hs : SecretOk P n ν s sk)
    {K : EvalKey W} (hK : Setting W n v P s sk ν K) {B B' : Nat}
    {err : FheOp → List (Ct W × FheEdge) → OpErr W} (he : ∀ op ins, ErrOk P n ν.fft (err op ins)) {G : Gens} (hG : GensOk G) {limit : Option Nat} (hlim : ∀ L, limit = some L → 500000 ≤ L)
    {mem : Mem Bool} {memC : Mem (Ct W)} (hmem : MemRel (fun b c => CtHolds P (bitKey W s) sk B c (ctOf .glwe1 b)) mem memC)
    {l : List (Arg Bool)} {l' : List (Arg (Ct W))} (hl : List.Forall₂ (ArgRel fun b c => CtHolds P (bitKey W s) sk B c (ctOf .glwe1 b)) l l')
    {t : Cpu.Ty} {v : t.Val Bool} {pc r N : Nat} {m : Mem Bool} {b : Regs} {bN : Arch (VReg Nat) Nat (Option (Byte Nat))} {code : Nat → Prop}
    (hset : setUpCall mem (callOf l t) = (m, .ok r))
    (hret : StoredReturns parasol fetchInst N (callState Reg.plain m r pc) b) (hkeep : KeepsCode parasol fetchInst instBytes code N (callState Reg.plain m r pc))
    (hst : Seq.Steady parasol (fetchInst (viewOf m)) Inst.key N (callState Reg.plain m r pc) .none)
    (hnoise : Returns (isa (noiseDom W P ν)) (fetchInst (viewOf m)) N (uniformNoise B (callState Reg.plain m r pc)) bN) (hq : ∀ x l, bN.mem x = some (.cipher l) → ∀ e ∈ l, e ≤ B')
    (hval : returnValue t b.mem r = .ok v) :
    ∃ mC bound, setUpCall memC (callOf l' t) = (mC, .ok r) ∧ MemRel (fun b c => CtHolds P (bitKey W s) sk B c (ctOf .glwe1 b)) m mC ∧
      ∀ ls st, ReachesCtM G P K err limit (callState VReg.plain mC r pc) ls st →
        st.fault = none ∧ ls.length ≤ bound ∧ (st.done ∨ ∃ l st', stepM (isa (ctDom G P K err)) fetchInst (callReg VReg.plain mC.sp r) limit st l = some st') ∧
        (st.done → (∀ x, ByteRel (fun b c => CtHolds P (bitKey W s) sk B' c (ctOf .glwe1 b)) (b.mem x) (st.mem x)) ∧
          ∃ vC, returnValue t st.mem r = .ok vC ∧ ValRel (fun b c => CtHolds P (bitKey W s) sk B' c (ctOf .glwe1 b)) t v vC) := by
  obtain ⟨s1, s2⟩ := setUpCall_rel hmem hl t
  rw [hset] at s1 s2
  generalize hmC : setUpCall memC (callOf l' t) = res at s1 s2
  obtain ⟨mC, rC⟩ := res
  simp only at s1 s2
  subst s2
  have ha : ArchRel (fun c b => CtHolds P (bitKey W s) sk B c (ctOf .glwe1 b)) (callState VReg.plain mC r pc) (fromArch (callState Reg.plain m r pc)) :=
    ⟨fun k => by
      show RegRel _ (callReg VReg.plain mC.sp r k) (fromReg (callReg Reg.plain m.sp r k))
      rw [← s1.sp]; exact callReg_rel _ _ _, fun x => byteRel_flip (s1.byte x), rfl⟩
  generalize hAC : callState VReg.plain mC r pc = aC at ha
  have hfe : fetchInst (viewOf m) = fetchInst aC.mem := (fetchInst_rel ha.mem).symm
  have hH := holds_uniform ha
  obtain ⟨b1, b2, b3⟩ := stored_returns fetch_local (viewOf m) N _ b (fun _ _ => rfl) hret hkeep
  obtain ⟨b', bC, c1, c2, c3, c4⟩ := ct_returns (err := err) hs hK he hG hH hnoise
  obtain ⟨_, rfl⟩ := Seq.returns_det c1 b1
  obtain ⟨d1, d2⟩ := ct_path (err := err) hs hK he hG hH hnoise
  have hplain : ∀ j, j < N → ∀ x ∈ instBytes (T parasol (fetchInst (viewOf m)) (callState Reg.plain m r pc) j).pc, ∃ v, viewOf m x = some (.plain v) := by
    intro j hj
    obtain ⟨i, hi⟩ := returns_fetched N b1 j hj
    exact fetchInst_plain hi
  have c5 := c4 _ hst
  rw [hfe] at c2 c5 d1 d2
  rw [hfe] at b2 b3 hplain
  obtain ⟨bound, hbound⟩ := call_schedules (code := fun x => code x ∧ ∃ v, viewOf m x = some (.plain v)) hlim c2 c5
    (fun j hj x hx => by rw [d1 j hj] at hx; exact ⟨b2 j hj x hx, hplain j hj x hx⟩)
    (fun j hj x hx => by
      obtain ⟨hc, v, hv⟩ := hx
      have h1 := (d2 j hj x v).2 (by rw [b3 j hj x hc]; exact hv)
      rw [h1]
      exact ((byteRel_plain (ha.mem x)).2 hv).symm)
  refine ⟨mC, bound, rfl, s1, fun ls st hreach => ?_⟩
  rw [hAC] at hreach
  obtain ⟨f1, f2, f3, f4⟩ := hbound ls st hreach
  have hreg : callReg VReg.plain mC.sp r = aC.reg := by rw [← hAC]; rfl
  refine ⟨f1, f2, by rw [hreg]; exact f3, fun hd => ?_⟩
  have hby : ∀ x, ByteRel (fun b c => CtHolds P (bitKey W s) sk B' c (ctOf .glwe1 b)) (b'.mem x) (st.mem x) := fun x => by
    rw [f4 hd]
    exact holdsVByte_bound hP hs (c3.mem x) (hq x)
  refine ⟨hby, ?_⟩
  have hrel := returnValue_rel (R := fun b c => CtHolds P (bitKey W s) sk B' c (ctOf .glwe1 b)) t (m := b'.mem) (m' := st.mem) r fun j _ => hby (r + j)
  rw [hval] at hrel
  cases hv : returnValue t st.mem r with
  | error e => rw [hv] at hrel; exact absurd hrel id
  | ok vC => rw [hv] at hrel; exact ⟨vC, rfl, hrel⟩

theorem byteRel_mono {α β : Type} {R S : α → β → Prop} (h : ∀ x y, R x y → S x y) {x : Option (Byte α)} {y : Option (Byte β)} (hx : ByteRel R x y) : ByteRel S x y := by
  rcases byteRel_cases hx with ⟨h1, h2⟩ | ⟨b, h1, h2⟩ | ⟨l, l', h1, h2, hl⟩
  · rw [h1, h2]; trivial
  · rw [h1, h2]; exact rfl
  · rw [h1, h2]; exact (show List.Forall₂ R l l' from hl).imp h

/-- **C119, any instructions.** As `C119_calls`, for programs with any instructions, given a noise analysis of each call: it starts with the noise bound the previous call left and must return; the bound after the last call must be below a quarter of the torus. -/
theorem C119_calls_noise {n v : Nat} {P : EvalParams} (hP : ParamsOk W n v P) {ν : NoiseLevels} {s : List Bool} {sk : List (List (BitVec W))} (hs : SecretOk P n ν s sk)
    (checked : Bool) {D : KeyDraws W} (hD : DrawsOk P n ν D) (B : Nat) :
    ∃ K, computeKeyGen checked P (bitKey W s) sk D = some K ∧ ∀ err : FheOp → List (Ct W × FheEdge) → OpErr W, (∀ op ins, ErrOk P n ν.fft (err op ins)) →
      ∀ G : Gens, GensOk G → ∀ (limit : Option Nat), (∀ L, limit = some L → 500000 ≤ L) → ∀ (mem : Mem Bool) (memC : Mem (Ct W)), MemHolds P (bitKey W s) sk B mem memC →
      ∀ calls : List (ACall W), (∀ c ∈ calls, ∀ a, Source.fresh a ∈ c.args → a.Holds P (bitKey W s) sk B) → ∀ (res : List (AnyVal Bool)) (E : Nat), E < 2 ^ (W - 2) → NoisyCalls P ν B mem [] calls res E →
        EveryRun G P K err limit (fun resC => List.Forall₂ (DecryptsAny P (bitKey W s) sk) res resC) calls memC [] := by
  obtain ⟨K, k1, k2⟩ := keygen_ok hP hs checked hD
  refine ⟨K, k1, fun err he G hG limit hlim mem memC hmem calls hargs res E hE hcl => ?_⟩
  have up : ∀ {B B' : Nat}, B ≤ B' → ∀ (x : Bool) (y : Ct W), CtHolds P (bitKey W s) sk B y (ctOf .glwe1 x) → CtHolds P (bitKey W s) sk B' y (ctOf .glwe1 x) := fun hB x y h => holds_mono hP hs.key hB h
  suffices H : ∀ {B E : Nat} {mem : Mem Bool} {h : List (AnyVal Bool)} {calls : List (ACall W)} {res : List (AnyVal Bool)}, NoisyCalls P ν B mem h calls res E → E < 2 ^ (W - 2) →
      ∀ {memC : Mem (Ct W)} {hC : List (AnyVal (Ct W))}, MemRel (fun b c => CtHolds P (bitKey W s) sk B c (ctOf .glwe1 b)) mem memC → List.Forall₂ (AnyRel fun b c => CtHolds P (bitKey W s) sk B c (ctOf .glwe1 b)) h hC →
      (∀ c ∈ calls, ∀ a, Source.fresh a ∈ c.args → a.Holds P (bitKey W s) sk B) →
      EveryRun G P K err limit (fun resC => List.Forall₂ (DecryptsAny P (bitKey W s) sk) res resC) calls memC hC from H hcl hE (memHolds_rel hmem) .nil hargs
  intro B E mem h calls res hcl
  induction hcl with
  | nil =>
    intro hE memC hC _ hh _
    exact hh.imp fun v c ⟨t, x, y, e1, e2, e3⟩ => ⟨t, x, y, e1, e2, valRel_mono (fun x y hxy => held_decrypts hP hs ((holds_iff hP hs.key _ _).1 hxy) hE) t e3⟩
  | cons h0 h1 h2 h3 h4 h5 h6 h7 _ ih =>
    intro hE memC hC hm hh hA
    obtain ⟨mC, bound, c1, c2, c3⟩ := call_noise hP hs k2 he hG hlim hm (callArgs_rel hh fun x hx a hxa => hA _ (by simp) a (hxa ▸ hx)) h1 h2 h3 h4 h5 h6 h7
    refine ⟨mC, _, bound, c1, fun ls st hr => ?_⟩
    obtain ⟨d1, d2, d3, d4⟩ := c3 ls st hr
    refine ⟨d1, d2, d3, fun hd => ?_⟩
    obtain ⟨e1, vC, e2, e3⟩ := d4 hd
    have c2' : MemRel (fun b c => CtHolds P (bitKey W s) sk _ c (ctOf .glwe1 b)) _ mC := ⟨c2.sp, fun x => byteRel_mono (up h0) (c2.byte x)⟩
    exact ⟨vC, e2, ih hE (after_rel c2' e1) (List.rel_append (hh.imp fun v c ⟨t, x, y, a1, a2, a3⟩ => ⟨t, x, y, a1, a2, valRel_mono (up h0) t a3⟩) (.cons ⟨_, _, _, rfl, rfl, e3⟩ .nil))
      fun c hc a ha => valRel_mono (up h0) a.ty (hA c (by simp [hc]) a ha)⟩

/-! ### concrete calls: the maximum of two encrypted bytes, then the maximum of the result and one of them -/

/-- the noise of a stored value is at most `B` -/
def storeNoise (B : Nat) (i : Inst) (vs : List (VReg Nat)) : Bool :=
  match i.op with
  | .store => match vs.getD 1 (.plain 0 32) with
    | .plain _ _ => true
    | .cts l => l.all fun e => decide (e ≤ B)
  | _ => true

/-- noise at most `B` in memory -/
def MemNoise (B : Nat) (m : VView Nat) : Prop := ∀ x l, m x = some (.cipher l) → ∀ e ∈ l, e ≤ B

theorem storeBytes_noise {B : Nat} {r : VReg Nat} (hr : ∀ l, r = .cts l → ∀ e ∈ l, e ≤ B) : ∀ (l : List Nat) (i : Nat) {m m' : VView Nat}, MemNoise B m → CtCpu.storeBytes r l i m = .ok m' → MemNoise B m'
  | [], _, _, _, hm, h => by cases h; exact hm
  | a :: l, i, m, m', hm, h => by
    unfold CtCpu.storeBytes at h
    cases hb : storeByte r i with
    | error e => rw [hb] at h; cases h
    | ok b =>
      rw [hb] at h
      simp only at h
      cases hma : m a with
      | none => rw [hma] at h; cases h
      | some y =>
        rw [hma] at h
        refine storeBytes_noise hr l (i + 1) (fun x k hx e he => ?_) h
        by_cases hxa : x = a
        · simp only [hxa, if_true] at hx
          unfold CtCpu.storeByte at hb
          cases r with
          | plain v w => cases hb; cases hx
          | cts k' =>
            simp only at hb
            by_cases hlen : 8 * i + 8 ≤ k'.length
            · rw [if_pos hlen] at hb
              cases hb
              cases hx
              exact hr k' rfl e (List.mem_of_mem_drop (List.mem_of_mem_take he))
            · rw [if_neg hlen] at hb; cases hb
        · simp only [hxa, if_false] at hx
          exact hm x k hx e he

theorem exec_noise {D : Dom Nat} {B : Nat} {i : Inst} {vs : List (VReg Nat)} {m m' : VView Nat} {o : List (VReg Nat)} (hs : storeNoise B i vs = true) (hm : MemNoise B m) (h : CtCpu.exec D i vs m = .ok (o, m')) : MemNoise B m' := by
  unfold CtCpu.exec at h
  unfold storeNoise at hs
  split at h
  · cases hl : span (vs.map VReg.shape) (i.nat 2) (i.arg 3) with
    | error e => rw [hl] at h; cases h
    | ok l =>
      rw [hl] at h
      simp only at h
      cases hr : CtCpu.loadReg m (i.nat 2) l with
      | error e => rw [hr] at h; cases h
      | ok r => rw [hr] at h; cases h; exact hm
  · rename_i hop
    rw [hop] at hs
    simp only at hs
    by_cases hn : i.nat 0 = i.nat 1
    · rw [if_pos hn] at h; cases h
    · rw [if_neg hn] at h
      cases hl : span (vs.map VReg.shape) (i.nat 2) (i.arg 3) with
      | error e => rw [hl] at h; cases h
      | ok l =>
        rw [hl] at h
        simp only at h
        cases hr : CtCpu.storeBytes (vs.getD 1 (.plain 0 32)) l 0 m with
        | error e => rw [hr] at h; cases h
        | ok r =>
          rw [hr] at h
          cases h
          refine storeBytes_noise (fun k hk e he => ?_) l 0 hm hr
          rw [hk] at hs
          simpa using List.all_eq_true.1 hs e he
  · cases hr : CtCpu.alu D i vs with
    | error e => rw [hr] at h; cases h
    | ok r => rw [hr] at h; cases h; exact hm

/-- as `runPath`, checking the noise of the values stored -/
def noisePath (D : Dom Nat) (B : Nat) (m : VView Bool) : List (Nat × Inst) → Arch (VReg Nat) Nat (Option (Byte Nat)) → Bool
  | [], _ => false
  | (pc, i) :: path, a => decide (a.pc = pc) && decide (fetchInst m pc = .ok i) && storeNoise B i (((isa D).srcs i).map a.reg) && (match Seq.step (isa D) (fun _ => .ok i) a with
    | .error _ => false
    | .ok (_, true) => path.isEmpty
    | .ok (a', false) => noisePath D B m path a')

theorem noisePath_ok {D : Dom Nat} {B : Nat} {m : VView Bool} : ∀ (path : List (Nat × Inst)) (a : Arch (VReg Nat) Nat (Option (Byte Nat))), noisePath D B m path a = true → MemNoise B a.mem →
    ∃ b, Returns (isa D) (fetchInst m) path.length a b ∧ MemNoise B b.mem
  | [], _, h, _ => by cases h
  | (pc, i) :: path, a, h, hm => by
    unfold noisePath at h
    simp only [Bool.and_eq_true, decide_eq_true_eq] at h
    obtain ⟨⟨⟨rfl, h1⟩, h3⟩, h2⟩ := h
    simp only [List.length_cons]
    unfold Returns
    rw [seq_step_congr (isa := isa D) (p := fetchInst m) (p' := fun _ => .ok i) (a := a) h1]
    have hstep : ∀ a' halted, Seq.step (isa D) (fun _ => .ok i) a = .ok (a', halted) → MemNoise B a'.mem := by
      intro a' halted hs
      unfold Seq.step at hs
      simp only at hs
      unfold Seq.effect at hs
      simp only at hs
      cases hacc : (isa D).access i (((isa D).srcs i).map a.reg) with
      | error e => rw [hacc] at hs; cases hs
      | ok l =>
        rw [hacc] at hs
        simp only at hs
        cases hex : (isa D).exec i (((isa D).srcs i).map a.reg) a.mem with
        | error e => rw [hex] at hs; cases hs
        | ok p =>
          obtain ⟨o, mm⟩ := p
          rw [hex] at hs
          simp only at hs
          have hm' := exec_noise h3 hm (show CtCpu.exec D i _ a.mem = .ok (o, mm) from hex)
          cases hn : (isa D).next i a.pc (((isa D).srcs i).map a.reg) with
          | ok pc => rw [hn] at hs; cases hs; exact hm'
          | error e => rw [hn] at hs; cases e <;> cases hs <;> exact hm'
    cases hst : Seq.step (isa D) (fun _ => .ok i) a with
    | error e => rw [hst] at h2; cases h2
    | ok r =>
      obtain ⟨a', halted⟩ := r
      rw [hst] at h2
      cases halted with
      | true => exact ⟨a', ⟨by rw [List.isEmpty_iff.1 h2]; rfl, rfl⟩, hstep a' true hst⟩
      | false => exact noisePath_ok path a' h2 (hstep a' false hst)

theorem uniform_noise {B B' : Nat} (h : B ≤ B') (a : Regs) : MemNoise B' (uniformNoise B a).mem := by
  intro x l hx e he
  simp only [uniformNoise] at hx
  cases ha : a.mem x with
  | none => rw [ha] at hx; cases hx
  | some y =>
    rw [ha] at hx
    cases y with
    | plain v => cases hx
    | cipher k =>
      cases hx
      obtain ⟨_, _, rfl⟩ := List.mem_map.1 he
      exact h

/-- a decidable form of one call of `NoisyCalls`, returning an encrypted byte; `k` examines the memory it leaves -/
def noisyB (P : EvalParams) (ν : NoiseLevels) (B B' : Nat) (path : List (Nat × Inst)) (mem : Mem Bool) (args : List (AnyVal Bool)) (pc : Nat) (v : List Bool) (k : Mem Bool → Bool) : Bool :=
  match setUpCall mem (callOf (callArgs args) (.enc 8)) with
  | (_, .error _) => false
  | (m, .ok r) => noisePath (noiseDom 64 P ν) B' (viewOf m) path (uniformNoise B (callState Reg.plain m r pc)) &&
    storedB (fun b => match returnValue (.enc 8) b.mem r with
    | .error _ => false
    | .ok (x : List Bool) => x == v && k (m.after b.mem)) 64 path (callState Reg.plain m r pc) .none

theorem noisy_of_B {P : EvalParams} {ν : NoiseLevels} {B B' E : Nat} {path : List (Nat × Inst)} {mem : Mem Bool} {args : List (AnyVal Bool)} {pc : Nat} {v : List Bool} {k : Mem Bool → Bool} {src : List (Source 64)} {h h' : List (AnyVal Bool)} {cs : List (ACall 64)}
    (hB : noisyB P ν B B' path mem args pc v k = true) (hBB : B ≤ B') (ha : src.map (Source.clear h) = args)
    (hk : ∀ m, k m = true → NoisyCalls P ν B' m (h ++ [⟨.enc 8, v⟩]) cs h' E) : NoisyCalls P ν B mem h (⟨pc, src, .enc 8⟩ :: cs) h' E := by
  unfold noisyB at hB
  rw [← ha] at hB
  cases hset : setUpCall mem (callOf (callArgs (src.map (Source.clear h))) (.enc 8)) with
  | mk m e =>
    rw [hset] at hB
    cases e with
    | error e => cases hB
    | ok r =>
      simp only [Bool.and_eq_true] at hB
      obtain ⟨bN, n1, n2⟩ := noisePath_ok path _ hB.1 (uniform_noise hBB _)
      obtain ⟨b, b1, b2, b3, b4, _⟩ := stored_of_B (m0 := viewOf m) (Q := fun _ => True) path _ _ hB.2 (fun _ _ => rfl) (fun _ _ => trivial)
      cases hv : returnValue (.enc 8) b.mem r with
      | error e => rw [hv] at b2; cases b2
      | ok x =>
        rw [hv] at b2
        simp only [Bool.and_eq_true] at b2
        obtain ⟨g1, g2⟩ := b2
        obtain rfl : x = v := eq_of_beq (α := List Bool) g1
        exact NoisyCalls.cons (c := ⟨pc, src, .enc 8⟩) hBB hset b1 b3 b4 n1 n2 hv (hk _ g2)

theorem exTwoMax : noisyB exCtParams exCtLevels 1000 (10 ^ 16) (straight exMax) (callMem exMaxWords) [⟨.enc 8, exSumX⟩, ⟨.enc 8, exSumY⟩] 0 exSumX
    (fun m => noisyB exCtParams exCtLevels (10 ^ 16) (10 ^ 17) (straight exMax) m [⟨.enc 8, exSumY⟩, ⟨.enc 8, exSumX⟩] 0 exSumX fun _ => true) = true := by
  decide +kernel

/-- max (77, 19) = 77, then max (19, 77) = 77 where 77 is the encrypted result of the first call -/
example (err : FheOp → List (Ct 64 × FheEdge) → OpErr 64) (he : ∀ op ins, ErrOk exCtParams 4 exCtLevels.fft (err op ins)) (x y : List (Ct 64))
    (hx : List.Forall₂ (fun b c => CtHolds exCtParams (bitKey 64 [true, true]) exCtSk 1000 c (ctOf .glwe1 b)) exSumX x)
    (hy : List.Forall₂ (fun b c => CtHolds exCtParams (bitKey 64 [true, true]) exCtSk 1000 c (ctOf .glwe1 b)) exSumY y) :
    ∃ K, computeKeyGen true exCtParams (bitKey 64 [true, true]) exCtSk exCtDraws = some K ∧
      EveryRun exGens exCtParams K err none (fun resC => List.Forall₂ (DecryptsAny exCtParams (bitKey 64 [true, true]) exCtSk) [⟨.enc 8, exSumX⟩, ⟨.enc 8, exSumX⟩] resC)
        [⟨0, [.fresh ⟨.enc 8, exSumX, x⟩, .fresh ⟨.enc 8, exSumY, y⟩], .enc 8⟩, ⟨0, [.fresh ⟨.enc 8, exSumY, y⟩, .result 0], .enc 8⟩] (callMem exMaxWords) [] := by
  obtain ⟨K, k1, k2⟩ := C119_calls_noise exCtParams_ok exCtSecret_ok true exCtDraws_ok 1000
  refine ⟨K, k1, k2 err he exGens exGens_ok none (by intro L h; cases h) (callMem exMaxWords) (callMem exMaxWords) (callMem_holds _) _ ?_ _ (10 ^ 17) (by norm_num) ?_⟩
  · intro c hc a ha
    simp only [List.mem_cons, List.not_mem_nil, or_false] at hc
    rcases hc with rfl | rfl
    · simp only [List.mem_cons, List.not_mem_nil, or_false, Source.fresh.injEq] at ha
      rcases ha with rfl | rfl
      · exact hx
      · exact hy
    · simp only [List.mem_cons, List.not_mem_nil, or_false, Source.fresh.injEq, reduceCtorEq] at ha
      subst ha
      exact hy
  · exact noisy_of_B exTwoMax (by norm_num) rfl fun m hm => noisy_of_B hm (by norm_num) rfl fun _ _ => .nil

end Spf.Props
