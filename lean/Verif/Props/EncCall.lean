import Verif.Props.EncInt
import Verif.Props.RunProgram
/-! C110: from a client's integers to its integer result. -/
namespace Spf.Props
open Spf.Cpu hiding fetchInst
open Spf.Spec hiding Ty
open Spf.Fhe Spf.Fluent Spf.Tfhe Spf.CtExec Spf.Cells Spf.Machine Spf.CtCpu Spf.EncInt
open Spf.Seq (Arch Returns StoredReturns KeepsCode OnlyRuns Slow)

variable {W : Nat}

/-- An integer argument, with the random draws of its encryption. -/
structure IntArg (W : Nat) where
  sign : Sign
  width : Nat
  val : BitVec 128
  draws : Nat → PkDraws W

/-- `a` is the argument of the integer `x`: its bits in the clear, and their encryption under the public key `pk`. -/
def EncOf (P : EvalParams) (pk : Glwe (BitVec W)) (x : IntArg W) (a : EncArg W) : Prop :=
  ∃ bs cs, a = ⟨.enc x.width, bs, cs⟩ ∧ bs.length = x.width ∧ bitsInt x.sign bs = intOf x.sign x.val ∧ intEncrypt P pk x.sign x.val x.width x.draws = some cs

theorem encArgs {n v : Nat} {P : EvalParams} (hP : ParamsOk W n v P) {ν : NoiseLevels} {s : List Bool} {s1 : List (BitVec W)} (hs : SecretOk P n ν s [s1])
    {E : Nat} {mask e : List (BitVec W)} (hk : PkOk P.degree E mask e) {B : Nat} (hE : pkNoise P.degree E ≤ B) :
    ∃ pk, rlwePublicKey P.degree s1 mask (some e) = some pk ∧ ∀ xs : List (IntArg W), (∀ x ∈ xs, Fits x.sign x.width x.val ∧ ∀ i, PkDrawsOk P.degree E (x.draws i)) →
      ∃ args, List.Forall₂ (EncOf P pk) xs args ∧ ∀ a ∈ args, a.Holds P (bitKey W s) [s1] B := by
  obtain ⟨pk, p1, p2⟩ := C109_unpacked hP hs hk
  refine ⟨pk, p1, fun xs => ?_⟩
  induction xs with
  | nil => exact fun _ => ⟨[], .nil, by simp⟩
  | cons x xs ih =>
    intro h
    obtain ⟨args, a1, a2⟩ := ih fun y hy => h y (by simp [hy])
    obtain ⟨hf, hd⟩ := h x (by simp)
    obtain ⟨cs, c1, ⟨bs, c2, c3, c4⟩, _⟩ := p2 x.sign x.width x.val hf x.draws hd
    refine ⟨⟨.enc x.width, bs, cs⟩ :: args, .cons ⟨bs, cs, rfl, c2, c3, c1⟩ a1, fun a ha => ?_⟩
    rcases List.mem_cons.1 ha with rfl | ha
    · show List.Forall₂ (fun b c => CtHolds P (bitKey W s) [s1] B c (ctOf .glwe1 b)) bs cs
      exact c4.imp fun b c hh => holds_mono hP hs.key hE hh
    · exact a2 a ha

/-- decrypting an integer result -/
theorem decrypts_int {n v : Nat} {P : EvalParams} (hP : ParamsOk W n v P) {ν : NoiseLevels} {s : List Bool} {sk : List (List (BitVec W))} (hs : SecretOk P n ν s sk) {w : Nat} {r : List Bool} {rC : List (Ct W)}
    (h0 : 0 < r.length) (h1 : r.length ≤ 128) (h : DecryptsVal P (bitKey W s) sk (.enc w) r rC) (sg : Sign) : ∃ y, intDecrypt P (bitKey W s) sk sg rC = some y ∧ intOf sg y = bitsInt sg r := by
  obtain ⟨y, y1, y2⟩ := fromBits_value (sg := sg) h0 h1
  exact ⟨y, by rw [intDecrypt_ok hP hs (t := .glwe1) (show List.Forall₂ _ r rC from h), y1], y2⟩

/-- **C110.** A client generates its keys, encrypts integers under the public key and passes them to a program in memory that takes encrypted integers of their widths and returns one of `w` bits. If the program, run on the bits of
the integers in the clear, one instruction after the other, returns the bits `r` (and keeps its code, is steady and uses none of exclusive or, `cmux`, shifts, nor multiplication unless `mul`), then under every schedule the encrypted run has no fault
and ends, and the client decrypts the result, as an unsigned or as a signed integer, to the integer with the bits `r`. -/
theorem C110_integer_call {n v : Nat} {P : EvalParams} (hP : ParamsOk W n v P) {ν : NoiseLevels} {s : List Bool} {s1 : List (BitVec W)} (hs : SecretOk P n ν s [s1])
    {E : Nat} {mask e : List (BitVec W)} (hk : PkOk P.degree E mask e) (checked : Bool) {D : KeyDraws W} (hD : DrawsOk P n ν D) {mul : Bool} {B : Nat} (hE : pkNoise P.degree E ≤ B)
    (hB : steadyNoise W P ν mul ≤ B) (hb : B + ksNoise W P ν < bootLimit W P ν) :
    ∃ pk K, rlwePublicKey P.degree s1 mask (some e) = some pk ∧ computeKeyGen checked P (bitKey W s) [s1] D = some K ∧ ∀ err : FheOp → List (Ct W × FheEdge) → OpErr W, (∀ op ins, ErrOk P n ν.fft (err op ins)) →
      ∀ G : Gens, GensOk G → ∀ (limit : Option Nat), (∀ L, limit = some L → 500000 ≤ L) → ∀ (mem : Mem Bool) (memC : Mem (Ct W)), MemHolds P (bitKey W s) [s1] B mem memC →
      ∀ xs : List (IntArg W), (∀ x ∈ xs, Fits x.sign x.width x.val ∧ ∀ i, PkDrawsOk P.degree E (x.draws i)) →
      ∃ args, List.Forall₂ (EncOf P pk) xs args ∧ ∀ (w : Nat) (r : List Bool), 0 < r.length → r.length ≤ 128 → ∀ (pc ret N : Nat) (m : Mem Bool) (b : Regs) (code : Nat → Prop),
        setUpCall mem (callOf (args.map fun x => toArg x.ty x.bits) (.enc w)) = (m, .ok ret) →
        StoredReturns parasol fetchInst N (callState Reg.plain m ret pc) b → KeepsCode parasol fetchInst instBytes code N (callState Reg.plain m ret pc) →
        OnlyRuns parasol fetchInst (Steady mul) N (callState Reg.plain m ret pc) → Seq.Steady parasol (fetchInst (viewOf m)) Inst.key N (callState Reg.plain m ret pc) .none →
        returnValue (.enc w) b.mem ret = .ok r →
        ∃ mC bound, setUpCall memC (callOf (args.map fun x => toArg x.ty x.cts) (.enc w)) = (mC, .ok ret) ∧ ∀ ls st, ReachesCtM G P K err limit (callState VReg.plain mC ret pc) ls st →
          st.fault = none ∧ ls.length ≤ bound ∧ (st.done ∨ ∃ l st', stepM (isa (ctDom G P K err)) fetchInst (callReg VReg.plain mC.sp ret) limit st l = some st') ∧
          (st.done → ∃ rC, returnValue (.enc w) st.mem ret = .ok rC ∧ ∀ sg : Sign, ∃ y, intDecrypt P (bitKey W s) [s1] sg rC = some y ∧ intOf sg y = bitsInt sg r) := by
  obtain ⟨pk, p1, p2⟩ := encArgs hP hs hk hE
  obtain ⟨K, k1, k2⟩ := C108_run_program hP hs checked hD hB hb
  refine ⟨pk, K, p1, k1, fun err he G hG limit hlim mem memC hmem xs hxs => ?_⟩
  obtain ⟨args, a1, a2⟩ := p2 xs hxs
  refine ⟨args, a1, fun w r h0 h1 pc ret N m b code hset hret hkeep honly hst hval => ?_⟩
  obtain ⟨mC, bound, c1, c2⟩ := k2 err he G hG limit hlim mem memC hmem args a2 (.enc w) r pc ret N m b code hset hret hkeep honly hst hval
  refine ⟨mC, bound, c1, fun ls st hr => ?_⟩
  obtain ⟨d1, d2, d3, d4⟩ := c2 ls st hr
  refine ⟨d1, d2, d3, fun hd => ?_⟩
  obtain ⟨rC, e1, e2, _⟩ := d4 hd
  exact ⟨rC, e1, fun sg => decrypts_int hP hs h0 h1 e2 sg⟩

/-- **C110, any instructions**, given a successful noise analysis of the program. -/
theorem C110_integer_call_noise {n v : Nat} {P : EvalParams} (hP : ParamsOk W n v P) {ν : NoiseLevels} {s : List Bool} {s1 : List (BitVec W)} (hs : SecretOk P n ν s [s1])
    {E : Nat} {mask e : List (BitVec W)} (hk : PkOk P.degree E mask e) (checked : Bool) {D : KeyDraws W} (hD : DrawsOk P n ν D) {B : Nat} (hE : pkNoise P.degree E ≤ B) :
    ∃ pk K, rlwePublicKey P.degree s1 mask (some e) = some pk ∧ computeKeyGen checked P (bitKey W s) [s1] D = some K ∧ ∀ err : FheOp → List (Ct W × FheEdge) → OpErr W, (∀ op ins, ErrOk P n ν.fft (err op ins)) →
      ∀ G : Gens, GensOk G → ∀ (limit : Option Nat), (∀ L, limit = some L → 500000 ≤ L) → ∀ (mem : Mem Bool) (memC : Mem (Ct W)), MemHolds P (bitKey W s) [s1] B mem memC →
      ∀ xs : List (IntArg W), (∀ x ∈ xs, Fits x.sign x.width x.val ∧ ∀ i, PkDrawsOk P.degree E (x.draws i)) →
      ∃ args, List.Forall₂ (EncOf P pk) xs args ∧ ∀ (w : Nat) (r : List Bool), 0 < r.length → r.length ≤ 128 → ∀ (pc ret N : Nat) (m : Mem Bool) (b : Regs) (bN : Arch (VReg Nat) Nat (Option (Byte Nat))) (code : Nat → Prop),
        setUpCall mem (callOf (args.map fun x => toArg x.ty x.bits) (.enc w)) = (m, .ok ret) →
        StoredReturns parasol fetchInst N (callState Reg.plain m ret pc) b → KeepsCode parasol fetchInst instBytes code N (callState Reg.plain m ret pc) →
        Seq.Steady parasol (fetchInst (viewOf m)) Inst.key N (callState Reg.plain m ret pc) .none →
        Returns (isa (noiseDom W P ν)) (fetchInst (viewOf m)) N (uniformNoise B (callState Reg.plain m ret pc)) bN →
        (∀ j, j < (Cpu.Ty.enc w).size → ∀ l, bN.mem (ret + j) = some (.cipher l) → ∀ e ∈ l, e < 2 ^ (W - 2)) → returnValue (.enc w) b.mem ret = .ok r →
        ∃ mC bound, setUpCall memC (callOf (args.map fun x => toArg x.ty x.cts) (.enc w)) = (mC, .ok ret) ∧ ∀ ls st, ReachesCtM G P K err limit (callState VReg.plain mC ret pc) ls st →
          st.fault = none ∧ ls.length ≤ bound ∧ (st.done ∨ ∃ l st', stepM (isa (ctDom G P K err)) fetchInst (callReg VReg.plain mC.sp ret) limit st l = some st') ∧
          (st.done → ∃ rC, returnValue (.enc w) st.mem ret = .ok rC ∧ ∀ sg : Sign, ∃ y, intDecrypt P (bitKey W s) [s1] sg rC = some y ∧ intOf sg y = bitsInt sg r) := by
  obtain ⟨pk, p1, p2⟩ := encArgs hP hs hk hE
  obtain ⟨K, k1, k2⟩ := C108_noise hP hs checked hD B
  refine ⟨pk, K, p1, k1, fun err he G hG limit hlim mem memC hmem xs hxs => ?_⟩
  obtain ⟨args, a1, a2⟩ := p2 xs hxs
  refine ⟨args, a1, fun w r h0 h1 pc ret N m b bN code hset hret hkeep hst hn hq hval => ?_⟩
  obtain ⟨mC, bound, c1, c2⟩ := k2 err he G hG limit hlim mem memC hmem args a2 (.enc w) r pc ret N m b bN code hset hret hkeep hst hn hq hval
  refine ⟨mC, bound, c1, fun ls st hr => ?_⟩
  obtain ⟨d1, d2, d3, d4⟩ := c2 ls st hr
  refine ⟨d1, d2, d3, fun hd => ?_⟩
  obtain ⟨rC, e1, e2⟩ := d4 hd
  exact ⟨rC, e1, fun sg => decrypts_int hP hs h0 h1 e2 sg⟩

/-! ### a concrete call: the sum of two integers -/

/-- the bits of the integers of a call are determined by their values -/
theorem encOf_bits {P : EvalParams} {pk : Glwe (BitVec W)} {x : IntArg W} {a : EncArg W} (hu : x.sign = .unsigned) (h : EncOf P pk x a) {bs : List Bool} (hl : bs.length = x.width) (hv : valLE bs = x.val.toNat) :
    ∃ cs, a = ⟨.enc x.width, bs, cs⟩ ∧ intEncrypt P pk x.sign x.val x.width x.draws = some cs := by
  obtain ⟨bs', cs, rfl, h2, h3, h4⟩ := h
  refine ⟨cs, ?_, h4⟩
  rw [hu] at h3
  have h3 : (valLE bs' : Int) = x.val.toNat := h3
  have : bs' = bs := valLE_inj (by omega) (by omega)
  rw [this]

/-- The client sends 77 and 19; the program adds them; the client opens 96. -/
example (err : FheOp → List (Ct 64 × FheEdge) → OpErr 64) (he : ∀ op ins, ErrOk exCtParams 4 exCtLevels.fft (err op ins)) :
    ∃ pk K x y, rlwePublicKey 16 (exCtSk.headD []) exPkMask (some exPkNoise) = some pk ∧ computeKeyGen true exCtParams (bitKey 64 [true, true]) exCtSk exCtDraws = some K ∧
      intEncrypt exCtParams pk .unsigned 77#128 8 (fun _ => exPkDraws) = some x ∧ intEncrypt exCtParams pk .unsigned 19#128 8 (fun _ => exPkDraws) = some y ∧
      ∃ mC bound, setUpCall (callMem exSumWords) (callOf [toArg (.enc 8) x, toArg (.enc 8) y] (.enc 8)) = (mC, .ok 8178) ∧ ∀ ls st, ReachesCtM exGens exCtParams K err none (callState VReg.plain mC 8178 0) ls st →
        st.fault = none ∧ ls.length ≤ bound ∧ (st.done → ∃ rC z, returnValue (.enc 8) st.mem 8178 = .ok rC ∧ intDecrypt exCtParams (bitKey 64 [true, true]) exCtSk .unsigned rC = some z ∧ z.toNat = 96) := by
  obtain ⟨pk, K, p1, k1, k2⟩ := C110_integer_call (P := exCtParams) exCtParams_ok exCtSecret_ok exPk_ok true exCtDraws_ok (E := 3) (B := 10 ^ 18) (mul := false) (by decide) exSteady_limits.1 exSteady_limits.2
  obtain ⟨args, a1, a2⟩ := k2 err he exGens exGens_ok none (by intro L h; cases h) (callMem exSumWords) (callMem exSumWords) (callMem_holds _)
    [⟨.unsigned, 8, 77#128, fun _ => exPkDraws⟩, ⟨.unsigned, 8, 19#128, fun _ => exPkDraws⟩]
    (by intro x hx
        simp only [List.mem_cons, List.not_mem_nil, or_false] at hx
        rcases hx with rfl | rfl <;> exact ⟨⟨by decide, by decide⟩, fun _ => exPkDraws_ok⟩)
  rcases a1 with _ | ⟨ha, _ | ⟨hb, hnil⟩⟩
  cases hnil
  obtain ⟨x, rfl, hx⟩ := encOf_bits rfl ha (bs := exSumX) (by decide) (by decide)
  obtain ⟨y, rfl, hy⟩ := encOf_bits rfl hb (bs := exSumY) (by decide) (by decide)
  refine ⟨pk, K, x, y, p1, k1, hx, hy, ?_⟩
  have h1 := exSum_frame
  have h2 := exSum_stored
  unfold exSumStart at h2
  have h3 := a2 8 [false, false, false, false, false, true, true, false] (by decide) (by decide) 0 8178
  change ∀ N m b code, setUpCall (callMem exSumWords) exSumCall = (m, .ok 8178) → _ at h3
  generalize setUpCall (callMem exSumWords) exSumCall = res at h1 h2 h3
  obtain ⟨m, e⟩ := res
  simp only at h1 h2
  subst h1
  obtain ⟨b, b1, b2, b3, b4, b5⟩ := stored_of_B (m0 := viewOf m) (Q := Steady false) (straight exSum) _ _ h2 (fun _ _ => rfl) exSum_only
  obtain ⟨mC, bound, c1, c2⟩ := h3 _ m b _ rfl b1 b3 b5 b4 (by
    cases hv : returnValue (.enc 8) b.mem 8178 with
    | error e => rw [hv] at b2; cases b2
    | ok v => rw [hv] at b2; exact congrArg Except.ok (eq_of_beq (α := List Bool) b2))
  refine ⟨mC, bound, c1, fun ls st hr => ?_⟩
  obtain ⟨d1, d2, _, d4⟩ := c2 ls st hr
  refine ⟨d1, d2, fun hd => ?_⟩
  obtain ⟨rC, e1, e2⟩ := d4 hd
  obtain ⟨z, z1, z2⟩ := e2 .unsigned
  refine ⟨rC, z, e1, z1, ?_⟩
  have : (z.toNat : Int) = 96 := z2.trans (by decide)
  exact_mod_cast this

end Spf.Props
