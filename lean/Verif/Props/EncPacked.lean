import Verif.Props.EncCall
import Verif.Props.Computer
/-! C111: the compact protocol. A client sends packed integers; the server unpacks them, runs a program and packs the result; the client opens it. -/
namespace Spf.Props
open Spf.Cpu hiding fetchInst
open Spf.Spec hiding Ty
open Spf.Fhe Spf.Fluent Spf.Tfhe Spf.CtExec Spf.Cells Spf.Machine Spf.CtCpu Spf.EncInt
open Spf.Sched (spawnAll TopoOrder)
open Spf.Seq (Arch Returns StoredReturns KeepsCode OnlyRuns Slow)

variable {W : Nat}

/-- A packed integer argument, with the random draws of its encryption. -/
structure PackedArg (W : Nat) where
  sign : Sign
  width : Nat
  val : BitVec 128
  draws : PkDraws W

/-- the low `w` bits of a value, least significant first -/
def bitsOf (w : Nat) (v : BitVec 128) : List Bool := (List.range w).map v.getLsbD

/-- `cts` is a possible result of `unpack_int` on the packed integer `c`: for some choice of cells, order of the circuit, number of workers and flow-control tokens and schedule, it is what the output cells contain
when the run has finished. -/
def UnpacksTo (P : EvalParams) (K : EvalKey W) (err : FheOp → List (Ct W × FheEdge) → OpErr W) (c : Packed W) (cts : List (Ct W)) : Prop :=
  ∃ inp outs g ord items cells threads tokens st, outs.length = c.bitLen ∧ outs.Nodup ∧ inp ∉ outs ∧ unpackInt c.bitLen inp outs = some g ∧ TopoOrder g ord ∧
    spawnAll [(g, ord)] 0 0 = some items ∧ cells (.glwe1, inp) = .glwe1 c.ct ∧ Reached (liftExec (execCt P K err)) threads tokens items cells st ∧ Finished items st ∧
    cts = outs.map fun o => st.cells (.glwe1, o)

/-- `c` is a possible result of `pack_int` on the encrypted integer `cts`. -/
def PacksTo (P : EvalParams) (K : EvalKey W) (err : FheOp → List (Ct W × FheEdge) → OpErr W) (cts : List (Ct W)) (c : Packed W) : Prop :=
  ∃ ins out g ord items cells threads tokens st, ins.Nodup ∧ out ∉ ins ∧ packInt P.degree ins out = some g ∧ TopoOrder g ord ∧ spawnAll [(g, ord)] 0 0 = some items ∧
    cts = (ins.map fun i => cells (.glwe1, i)) ∧ Reached (liftExec (execCt P K err)) threads tokens items cells st ∧ Finished items st ∧ c.bitLen = cts.length ∧ st.cells (.glwe1, out) = .glwe1 c.ct

theorem and_one (v : BitVec 128) : ((v &&& 1#128) == 1#128) = v.getLsbD 0 := by
  rw [BitVec.and_one_eq_setWidth_ofBool_getLsbD]
  cases v.getLsbD 0 <;> rfl

/-- the bits of an integer that fits -/
theorem toBits_eq {sg : Sign} {w : Nat} {v : BitVec 128} (hw : w ≤ 128) : toBits sg v w = some (bitsOf w v) := by
  cases sg with
  | unsigned =>
    rw [toBits, toBitsU, if_pos hw, bitsOf]
    congr 1
    apply List.map_congr_left
    intro i hi
    rw [and_one, BitVec.getLsbD_ushiftRight, Nat.add_zero]
  | signed =>
    rw [toBits, toBitsS, if_pos hw, bitsOf]
    congr 1
    apply List.map_congr_left
    intro i hi
    have hi : i < w := List.mem_range.1 hi
    rw [and_one, BitVec.getLsbD_sshiftRight]
    simp [show i < 128 by omega]

theorem fits_le {sg : Sign} {w : Nat} {v : BitVec 128} (h : Fits sg w v) : w ≤ 128 := by
  cases sg with
  | unsigned => exact h.1
  | signed => have := h.2.1; omega

/-- a ciphertext that holds the bits of an integer is opened as this integer -/
theorem packedDecrypt_held {n v : Nat} {P : EvalParams} (hP : ParamsOk W n v P) {bs : List Bool} (h0 : 0 < bs.length) (h1 : bs.length ≤ 128) (hw : bs.length < P.degree) {s : List (BitVec W)} {sk : List (List (BitVec W))} {c : Packed W}
    (hl : c.bitLen = bs.length) (h : CtDecrypts P s sk (.glwe1 c.ct) (.glwe1 fun i => bs.getD i false)) (sg : Sign) : ∃ y, packedDecrypt P sk sg c = some y ∧ intOf sg y = bitsInt sg bs := by
  have hW : 1 < W := by have := hP.levels; omega
  obtain ⟨y, y1, y2⟩ := fromBits_value (sg := sg) h0 h1
  refine ⟨y, ?_, y2⟩
  rw [packedDecrypt, if_pos (by omega), show clientDecGlwe sk c.ct = _ from h]
  simp only
  rw [hl, packed_bits (by omega) (by omega), y1]

/-- the result of unpacking a packed integer holds its bits -/
theorem unpack_holds {P : EvalParams} {K : EvalKey W} {err : FheOp → List (Ct W × FheEdge) → OpErr W} {s : List (BitVec W)} {sk : List (List (BitVec W))} {B : Nat} {c : Packed W} {bs : List Bool} (hl : bs.length = c.bitLen)
    (hrun : ∀ (inp : Nat) (outs : List Nat), outs.length = c.bitLen → outs.Nodup → inp ∉ outs → ∃ g, unpackInt c.bitLen inp outs = some g ∧ ∀ cells : CtType × Nat → Ct W, cells (.glwe1, inp) = .glwe1 c.ct →
      RunsTo P K err g cells fun cells' => ∀ i o : Nat, outs[i]? = some o → CtHolds P s sk B (cells' (.glwe1, o)) (ctOf .glwe1 (bs.getD i false))) {cts : List (Ct W)} (h : UnpacksTo P K err c cts) :
    List.Forall₂ (fun b c => CtHolds P s sk B c (ctOf .glwe1 b)) bs cts := by
  obtain ⟨inp, outs, g, ord, items, cells, threads, tokens, st, h1, h2, h3, h4, h5, h6, h7, h8, h9, rfl⟩ := h
  obtain ⟨g', g1, g2⟩ := hrun inp outs h1 h2 h3
  rw [h4] at g1
  cases g1
  obtain ⟨_, r2⟩ := g2 cells h7
  obtain ⟨items', i1, i2⟩ := r2 ord h5
  rw [h6] at i1
  cases i1
  obtain ⟨_, f2⟩ := i2 threads tokens st h8 h9
  refine List.forall₂_iff_get.2 ⟨by simp; omega, fun i hi hi' => ?_⟩
  have hio : i < outs.length := by simpa using hi'
  have := f2 i outs[i] (List.getElem?_eq_getElem hio)
  rw [List.getD_eq_getElem?_getD, List.getElem?_eq_getElem hi] at this
  simpa using this

theorem bitsInt_inj {sg : Sign} {a b : List Bool} (hl : a.length = b.length) (h : bitsInt sg a = bitsInt sg b) : a = b := by
  cases sg with
  | unsigned => exact valLE_inj hl (by simpa [bitsInt] using h)
  | signed =>
    have h : (valLE a : Int) - (if a.getLastD false then (2 : Int) ^ a.length else 0) = (valLE b : Int) - (if b.getLastD false then (2 : Int) ^ b.length else 0) := h
    have ha := valLE_lt a
    have hb := valLE_lt b
    have ha' : (valLE a : Int) < (2 : Int) ^ a.length := by exact_mod_cast ha
    have hb' : (valLE b : Int) < (2 : Int) ^ b.length := by exact_mod_cast hb
    rw [hl] at h ha'
    generalize (2 : Int) ^ b.length = q at *
    refine valLE_inj hl ?_
    split at h <;> split at h <;> omega

theorem forall₂_right {α β : Type} {R : α → β → Prop} : ∀ {xs : List α} {ys : List β}, List.Forall₂ R xs ys → ∀ {y : β}, y ∈ ys → ∃ x ∈ xs, R x y
  | _, _, .cons (a := x) h hs, y, hy => by
    rcases List.mem_cons.1 hy with rfl | hy
    · exact ⟨x, by simp, h⟩
    · obtain ⟨x', h1, h2⟩ := forall₂_right hs hy
      exact ⟨x', by simp [h1], h2⟩

/-- the unpacked arguments of a call -/
theorem packed_args {P : EvalParams} {K : EvalKey W} {err : FheOp → List (Ct W × FheEdge) → OpErr W} {s : List (BitVec W)} {sk : List (List (BitVec W))} {B : Nat} {Q : PackedArg W → Packed W → Prop} :
    ∀ {xs : List (PackedArg W)} {cs : List (Packed W)} {us : List (List (Ct W))},
    List.Forall₂ (fun (x : PackedArg W) c => Q x c ∧ c.bitLen = x.width ∧
      ∀ (inp : Nat) (outs : List Nat), outs.length = c.bitLen → outs.Nodup → inp ∉ outs → ∃ g, unpackInt c.bitLen inp outs = some g ∧ ∀ cells : CtType × Nat → Ct W, cells (.glwe1, inp) = .glwe1 c.ct →
        RunsTo P K err g cells fun cells' => ∀ i o : Nat, outs[i]? = some o → CtHolds P s sk B (cells' (.glwe1, o)) (ctOf .glwe1 ((bitsOf x.width x.val).getD i false))) xs cs →
    List.Forall₂ (UnpacksTo P K err) cs us →
    ∃ args : List (EncArg W), (args.map fun a => toArg a.ty a.bits) = (xs.map fun x => toArg (.enc x.width) (bitsOf x.width x.val)) ∧
      (args.map fun a => toArg a.ty a.cts) = List.zipWith (fun (x : PackedArg W) (u : List (Ct W)) => toArg (.enc x.width) u) xs us ∧ ∀ a ∈ args, a.Holds P s sk B
  | [], [], [], _, _ => ⟨[], rfl, rfl, by simp⟩
  | x :: xs, c :: cs, u :: us, .cons h hs', .cons hu hus => by
    obtain ⟨args, a1, a2, a3⟩ := packed_args hs' hus
    refine ⟨⟨.enc x.width, bitsOf x.width x.val, u⟩ :: args, by rw [List.map_cons, a1]; rfl, by rw [List.map_cons, a2]; rfl, fun a ha => ?_⟩
    rcases List.mem_cons.1 ha with rfl | ha
    · exact unpack_holds (by rw [h.2.1]; simp [bitsOf]) h.2.2 hu
    · exact a3 a ha

/-- the result of packing ciphertexts of bits is opened as the integer with these bits -/
theorem pack_decrypts {n v : Nat} {P : EvalParams} (hP : ParamsOk W n v P) {K : EvalKey W} {err : FheOp → List (Ct W × FheEdge) → OpErr W} {s : List (BitVec W)} {sk : List (List (BitVec W))} {B : Nat} {r : List Bool} {rC : List (Ct W)}
    (h0 : 0 < r.length) (h1 : r.length ≤ 128) (hw : r.length < P.degree) (hB : r.length * B < 2 ^ (W - 2))
    (hrun : ∀ (ins : List Nat) (out : Nat), 0 < ins.length → ins.length ≤ P.degree → out ∉ ins → ∃ g, packInt P.degree ins out = some g ∧
        ∀ (B : Nat) (cells : CtType × Nat → Ct W) (m : Nat → Bool), (∀ c ∈ ins, CtHolds P s sk B (cells (.glwe1, c)) (ctOf .glwe1 (m c))) →
          RunsTo P K err g cells fun cells' => (ins.length * B < 2 ^ (W - 2) → CtDecrypts P s sk (cells' (.glwe1, out)) (.glwe1 fun j => (ins.map m).getD j false)))
    (hr : List.Forall₂ (fun b c => CtHolds P s sk B c (ctOf .glwe1 b)) r rC) {c : Packed W} (h : PacksTo P K err rC c) (sg : Sign) : ∃ y, packedDecrypt P sk sg c = some y ∧ intOf sg y = bitsInt sg r := by
  obtain ⟨ins, out, g, ord, items, cells, threads, tokens, st, h2, h3, h4, h5, h6, rfl, h8, h9, h10, h11⟩ := h
  have hlen : r.length = ins.length := by simpa using hr.length_eq
  obtain ⟨g', g1, g2⟩ := hrun ins out (by omega) (by omega) h3
  rw [h4] at g1
  cases g1
  have hm : ∀ i (hi : i < ins.length), r.getD (ins.idxOf ins[i]) false = r[i]'(by omega) := by
    intro i hi
    rw [h2.idxOf_getElem i hi, List.getD_eq_getElem?_getD, List.getElem?_eq_getElem (by omega)]
    rfl
  obtain ⟨_, r2⟩ := g2 B cells (fun c => r.getD (ins.idxOf c) false) (by
    intro c hc
    obtain ⟨i, hi, rfl⟩ := List.getElem_of_mem hc
    rw [hm i hi]
    have := (List.forall₂_iff_get.1 hr).2 i (by omega) (by simpa using hi)
    simpa using this)
  obtain ⟨items', i1, i2⟩ := r2 ord h5
  rw [h6] at i1
  cases i1
  obtain ⟨_, f2⟩ := i2 threads tokens st h8 h9
  have f3 := f2 (by rw [← hlen]; exact hB)
  have hmap : (ins.map fun c => r.getD (ins.idxOf c) false) = r := by
    apply List.ext_getElem
    · simp [hlen]
    · intro i h1 h2
      rw [List.getElem_map]
      exact hm i (by omega)
  rw [hmap, h11] at f3
  exact packedDecrypt_held hP h0 h1 hw (by rw [h10]; simp [hlen]) f3 sg

/-- **C111.** A client generates its keys, encrypts integers in packed form (one ciphertext each) under the public key and sends them to a server. The server unpacks each (`unpack_int`), passes them to a program in memory and packs the `w`-bit
result (`pack_int`). If the program, run on the bits of the integers in the clear, one instruction after the other, returns the bits `r` (and keeps its code, is steady and uses none of exclusive or, `cmux`, shifts, nor multiplication unless
`mul`), then none of these runs fails, under any schedule of the circuit workers and of the processor, and whatever the schedules were, the client opens the packed result as the integer with the bits `r`. -/
theorem C111_packed_call {n v : Nat} {P : EvalParams} (hP : ParamsOk W n v P) {ν : NoiseLevels} {s : List Bool} {s1 : List (BitVec W)} (hs : SecretOk P n ν s [s1])
    {E : Nat} {mask e : List (BitVec W)} (hk : PkOk P.degree E mask e) (checked : Bool) {D : KeyDraws W} (hD : DrawsOk P n ν D) {mul : Bool} {B : Nat} (hE : pkNoise P.degree E + ksNoise W P ν < bootLimit W P ν)
    (hU : muxNoise W P ν (bootNoise W P ν) ≤ B) (hB : steadyNoise W P ν mul ≤ B) (hb : B + ksNoise W P ν < bootLimit W P ν) :
    ∃ pk K, rlwePublicKey P.degree s1 mask (some e) = some pk ∧ computeKeyGen checked P (bitKey W s) [s1] D = some K ∧ ∀ err : FheOp → List (Ct W × FheEdge) → OpErr W, (∀ op ins, ErrOk P n ν.fft (err op ins)) →
      ∀ G : Gens, GensOk G → ∀ (limit : Option Nat), (∀ L, limit = some L → 500000 ≤ L) → ∀ (mem : Mem Bool) (memC : Mem (Ct W)), MemHolds P (bitKey W s) [s1] B mem memC →
      ∀ xs : List (PackedArg W), (∀ x ∈ xs, Fits x.sign x.width x.val ∧ x.width < P.degree ∧ PkDrawsOk P.degree E x.draws) →
      ∃ cs, List.Forall₂ (fun x c => packedEncrypt P pk x.sign x.val x.width x.draws = some c) xs cs ∧
        (∀ c ∈ cs, ∀ (inp : Nat) (outs : List Nat), outs.length = c.bitLen → outs.Nodup → inp ∉ outs → ∃ g, unpackInt c.bitLen inp outs = some g ∧
          ∀ cells : CtType × Nat → Ct W, cells (.glwe1, inp) = .glwe1 c.ct → RunsTo P K err g cells fun _ => True) ∧
        ∀ us, List.Forall₂ (UnpacksTo P K err) cs us → ∀ (w : Nat) (r : List Bool), 0 < r.length → r.length ≤ 128 → r.length < P.degree → r.length * B < 2 ^ (W - 2) →
        ∀ (pc ret N : Nat) (m : Mem Bool) (b : Regs) (code : Nat → Prop),
        setUpCall mem (callOf (xs.map fun x => toArg (.enc x.width) (bitsOf x.width x.val)) (.enc w)) = (m, .ok ret) →
        StoredReturns parasol fetchInst N (callState Reg.plain m ret pc) b → KeepsCode parasol fetchInst instBytes code N (callState Reg.plain m ret pc) →
        OnlyRuns parasol fetchInst (Steady mul) N (callState Reg.plain m ret pc) → Seq.Steady parasol (fetchInst (viewOf m)) Inst.key N (callState Reg.plain m ret pc) .none →
        returnValue (.enc w) b.mem ret = .ok r →
        ∃ mC bound, setUpCall memC (callOf (List.zipWith (fun (x : PackedArg W) (u : List (Ct W)) => toArg (.enc x.width) u) xs us) (.enc w)) = (mC, .ok ret) ∧
          ∀ ls st, ReachesCtM G P K err limit (callState VReg.plain mC ret pc) ls st →
          st.fault = none ∧ ls.length ≤ bound ∧ (st.done ∨ ∃ l st', stepM (isa (ctDom G P K err)) fetchInst (callReg VReg.plain mC.sp ret) limit st l = some st') ∧
          (st.done → ∃ rC : List (Ct W), returnValue (.enc w) st.mem ret = .ok rC ∧
            (∀ (ins : List Nat) (out : Nat), out ∉ ins → ins.length = rC.length → ins.Nodup → ∃ g, packInt P.degree ins out = some g ∧
              ∀ cells : CtType × Nat → Ct W, (rC = ins.map fun i => cells (.glwe1, i)) → RunsTo P K err g cells fun _ => True) ∧
            ∀ c, PacksTo P K err rC c → ∀ sg : Sign, ∃ y, packedDecrypt P [s1] sg c = some y ∧ intOf sg y = bitsInt sg r) := by
  obtain ⟨pk, p1, p2⟩ := C109_packed hP hs hk
  obtain ⟨K, k1, k2⟩ := C108_run_program hP hs checked hD hB hb
  obtain ⟨K', k1', kU⟩ := C104_unpack hP hs checked hD
  obtain ⟨K'', k1'', kP⟩ := C104_pack hP hs checked hD
  rw [k1] at k1' k1''
  cases k1'
  cases k1''
  refine ⟨pk, K, p1, k1, fun err he G hG limit hlim mem memC hmem xs hxs => ?_⟩
  have hun : ∀ x ∈ xs, ∃ c, packedEncrypt P pk x.sign x.val x.width x.draws = some c ∧ c.bitLen = x.width ∧
      ∀ (inp : Nat) (outs : List Nat), outs.length = c.bitLen → outs.Nodup → inp ∉ outs → ∃ g, unpackInt c.bitLen inp outs = some g ∧ ∀ cells : CtType × Nat → Ct W, cells (.glwe1, inp) = .glwe1 c.ct →
        RunsTo P K err g cells fun cells' => ∀ i o : Nat, outs[i]? = some o → CtHolds P (bitKey W s) [s1] B (cells' (.glwe1, o)) (ctOf .glwe1 ((bitsOf x.width x.val).getD i false)) := by
    intro x hx
    obtain ⟨hf, hw, hd⟩ := hxs x hx
    obtain ⟨c, c1, c2, ⟨bs, b1, b2, b3⟩, _⟩ := p2 x.sign x.width x.val hf hw x.draws hd
    have hbs : bs = bitsOf x.width x.val := by
      obtain ⟨bs', _, e2, e3, e4, _⟩ := toBits_ok hf
      rw [toBits_eq (fits_le hf)] at e2
      cases e2
      exact bitsInt_inj (by rw [b1, e3]) (b2.trans e4.symm)
    subst hbs
    refine ⟨c, c1, c2, fun inp outs o1 o2 o3 => ?_⟩
    obtain ⟨g, g1, g2⟩ := kU err he c.bitLen inp outs (by omega) o1 o2 o3
    refine ⟨g, g1, fun cells hc => ?_⟩
    refine RunsTo.mono (g2 _ cells _ (by rw [hc]; exact b3) hE) fun cells' h i o hio => ?_
    exact holds_mono hP hs.key hU (h i o hio).1
  have key : ∃ cs, List.Forall₂ (fun (x : PackedArg W) c => packedEncrypt P pk x.sign x.val x.width x.draws = some c ∧ c.bitLen = x.width ∧
      ∀ (inp : Nat) (outs : List Nat), outs.length = c.bitLen → outs.Nodup → inp ∉ outs → ∃ g, unpackInt c.bitLen inp outs = some g ∧ ∀ cells : CtType × Nat → Ct W, cells (.glwe1, inp) = .glwe1 c.ct →
        RunsTo P K err g cells fun cells' => ∀ i o : Nat, outs[i]? = some o → CtHolds P (bitKey W s) [s1] B (cells' (.glwe1, o)) (ctOf .glwe1 ((bitsOf x.width x.val).getD i false))) xs cs := by
    clear hxs
    induction xs with
    | nil => exact ⟨[], .nil⟩
    | cons x xs ih =>
      obtain ⟨cs, hcs⟩ := ih fun y hy => hun y (by simp [hy])
      obtain ⟨c, hc⟩ := hun x (by simp)
      exact ⟨c :: cs, .cons hc hcs⟩
  obtain ⟨cs, hcs⟩ := key
  refine ⟨cs, hcs.imp fun _ _ h => h.1, ?_, ?_⟩
  · intro c hc inp outs o1 o2 o3
    obtain ⟨x, _, hx⟩ := forall₂_right hcs hc
    obtain ⟨g, g1, g2⟩ := hx.2.2 inp outs o1 o2 o3
    exact ⟨g, g1, fun cells h => RunsTo.mono (g2 cells h) fun _ _ => trivial⟩
  · intro us hus w r h0 h1 hw hrB pc ret N m b code hset hret hkeep honly hst hval
    obtain ⟨args, a1, a2, a3⟩ := packed_args hcs hus
    rw [← a1] at hset
    obtain ⟨mC, bound, c1, c2⟩ := k2 err he G hG limit hlim mem memC hmem args a3 (.enc w) r pc ret N m b code hset hret hkeep honly hst hval
    rw [a2] at c1
    refine ⟨mC, bound, c1, fun ls st hr => ?_⟩
    obtain ⟨d1, d2, d3, d4⟩ := c2 ls st hr
    refine ⟨d1, d2, d3, fun hd => ?_⟩
    obtain ⟨rC, e1, _, e3⟩ := d4 hd
    have e3 : List.Forall₂ (fun b c => CtHolds P (bitKey W s) [s1] B c (ctOf .glwe1 b)) r rC := e3
    have hlen : r.length = rC.length := e3.length_eq
    refine ⟨rC, e1, ?_, fun c hc sg => pack_decrypts hP h0 h1 hw hrB (fun ins out q1 q2 q3 => ?_) e3 hc sg⟩
    · intro ins out q1 q2 q3
      obtain ⟨g, g1, g2⟩ := kP err he ins out (by omega) (by omega) q1
      refine ⟨g, g1, fun cells hcells => ?_⟩
      refine RunsTo.mono (g2 B cells (fun c => r.getD (ins.idxOf c) false) ?_) fun _ _ => trivial
      intro c hc
      obtain ⟨i, hi, rfl⟩ := List.getElem_of_mem hc
      rw [q3.idxOf_getElem i hi, List.getD_eq_getElem?_getD, List.getElem?_eq_getElem (by omega)]
      subst hcells
      have := (List.forall₂_iff_get.1 e3).2 i (by omega) (by simpa using hi)
      simpa using this
    · obtain ⟨g, g1, g2⟩ := kP err he ins out q1 q2 q3
      exact ⟨g, g1, fun B cells m hm => RunsTo.mono (g2 B cells m hm) fun _ h => h.2⟩

/-! ### a concrete protocol run: the sum of two packed integers -/

/-- parameters that leave room for eight bits to be packed -/
def exPackParams : EvalParams := ⟨2, 1, 16, ⟨5, 4⟩, ⟨8, 6⟩, ⟨4, 12⟩, ⟨8, 6⟩, ⟨8, 6⟩⟩

theorem exPackParams_ok : ParamsOk 64 4 2 exPackParams := by constructor <;> decide

theorem exPacked_limits : steadyNoise 64 exPackParams exCtLevels false ≤ 2 ^ 58 ∧ 2 ^ 58 + ksNoise 64 exPackParams exCtLevels < bootLimit 64 exPackParams exCtLevels ∧
    muxNoise 64 exPackParams exCtLevels (bootNoise 64 exPackParams exCtLevels) ≤ 2 ^ 58 ∧ pkNoise exPackParams.degree 3 + ksNoise 64 exPackParams exCtLevels < bootLimit 64 exPackParams exCtLevels := by decide +kernel

theorem exPackSecret_ok : SecretOk exPackParams 4 exCtLevels [true, true] exCtSk := ⟨exCtSecret_ok.len, exCtSecret_ok.ones, exCtSecret_ok.key, exCtSecret_ok.bin⟩

theorem exPackDraws_ok : DrawsOk exPackParams 4 exCtLevels exCtDraws where
  bskMask := fun h i j => ⟨rfl, by simp [exCtDraws]⟩
  bskNoise := fun h i j => noiseOk_replicate (by decide)
  akMask := fun h i j => ⟨rfl, by simp [exCtDraws]⟩
  akNoise := fun h i j => noiseOk_replicate (by decide)
  scratch := ⟨rfl, by simp [exCtDraws]⟩
  sskMask := fun i j => ⟨rfl, by simp [exCtDraws]⟩
  sskNoise := fun i j => fun l hl => by cases hl
  kskMask := fun i j => rfl
  kskNoise := fun _ _ => (by decide : (-2 : Int).natAbs ≤ 4)

/-- The client sends 77 and 19 in one ciphertext each; the server unpacks, adds and packs; the client opens one ciphertext and gets 96, whatever the schedules of the five runs. -/
example (err : FheOp → List (Ct 64 × FheEdge) → OpErr 64) (he : ∀ op ins, ErrOk exPackParams 4 exCtLevels.fft (err op ins)) :
    ∃ pk K x y, rlwePublicKey 16 (exCtSk.headD []) exPkMask (some exPkNoise) = some pk ∧ computeKeyGen true exPackParams (bitKey 64 [true, true]) exCtSk exCtDraws = some K ∧
      packedEncrypt exPackParams pk .unsigned 77#128 8 exPkDraws = some x ∧ packedEncrypt exPackParams pk .unsigned 19#128 8 exPkDraws = some y ∧
      ∀ xs ys, UnpacksTo exPackParams K err x xs → UnpacksTo exPackParams K err y ys →
      ∃ mC bound, setUpCall (callMem exSumWords) (callOf [toArg (.enc 8) xs, toArg (.enc 8) ys] (.enc 8)) = (mC, .ok 8178) ∧ ∀ ls st, ReachesCtM exGens exPackParams K err none (callState VReg.plain mC 8178 0) ls st →
        st.fault = none ∧ ls.length ≤ bound ∧ (st.done → ∃ rC : List (Ct 64), returnValue (.enc 8) st.mem 8178 = .ok rC ∧ ∀ c, PacksTo exPackParams K err rC c →
          ∃ z, packedDecrypt exPackParams exCtSk .unsigned c = some z ∧ z.toNat = 96) := by
  obtain ⟨l1, l2, l3, l4⟩ := exPacked_limits
  obtain ⟨pk, K, p1, k1, k2⟩ := C111_packed_call (P := exPackParams) exPackParams_ok exPackSecret_ok exPk_ok true exPackDraws_ok (E := 3) (B := 2 ^ 58) (mul := false) l4 l3 l1 l2
  obtain ⟨cs, a1, _, a2⟩ := k2 err he exGens exGens_ok none (by intro L h; cases h) (callMem exSumWords) (callMem exSumWords) (callMem_holds _)
    [⟨.unsigned, 8, 77#128, exPkDraws⟩, ⟨.unsigned, 8, 19#128, exPkDraws⟩]
    (by intro x hx
        simp only [List.mem_cons, List.not_mem_nil, or_false] at hx
        rcases hx with rfl | rfl <;> exact ⟨⟨by decide, by decide⟩, by decide, exPkDraws_ok⟩)
  rcases a1 with _ | ⟨ha, _ | ⟨hb, hnil⟩⟩
  cases hnil
  refine ⟨pk, K, _, _, p1, k1, ha, hb, fun xs ys hxs hys => ?_⟩
  have h1 := exSum_frame
  have h2 := exSum_stored
  unfold exSumStart at h2
  have h3 := a2 [xs, ys] (.cons hxs (.cons hys .nil)) 8 [false, false, false, false, false, true, true, false] (by decide) (by decide) (by decide) (by decide) 0 8178
  have hb : (callOf ([(⟨.unsigned, 8, 77#128, exPkDraws⟩ : PackedArg 64), ⟨.unsigned, 8, 19#128, exPkDraws⟩].map fun x => toArg (α := Bool) (.enc x.width) (bitsOf x.width x.val)) (.enc 8)) = exSumCall := by
    have e1 : bitsOf 8 77#128 = exSumX := by decide
    have e2 : bitsOf 8 19#128 = exSumY := by decide
    rw [List.map_cons, List.map_cons, List.map_nil]
    simp only [e1, e2]
    rfl
  rw [hb] at h3
  generalize setUpCall (callMem exSumWords) exSumCall = res at h1 h2 h3
  obtain ⟨m, e⟩ := res
  simp only at h1 h2
  subst h1
  obtain ⟨b, b1, b2, b3, b4, b5⟩ := stored_of_B (m0 := viewOf m) (Q := Steady false) (straight exSum) _ _ h2 (fun _ _ => rfl) exSum_only
  obtain ⟨mC, bound, c1, c2⟩ := h3 _ m b _ rfl b1 b3 b5 b4 (by
    cases hv : returnValue (.enc 8) b.mem 8178 with
    | error e => rw [hv] at b2; cases b2
    | ok v => rw [hv] at b2; exact congrArg Except.ok (eq_of_beq (α := List Bool) b2))
  refine ⟨mC, bound, c1, fun ls st hr => ?_⟩
  obtain ⟨d1, d2, _, d4⟩ := c2 ls st hr
  refine ⟨d1, d2, fun hd => ?_⟩
  obtain ⟨rC, e1, _, e2⟩ := d4 hd
  refine ⟨rC, e1, fun c hc => ?_⟩
  obtain ⟨z, z1, z2⟩ := e2 c hc .unsigned
  refine ⟨z, z1, ?_⟩
  have : (z.toNat : Int) = 96 := z2.trans (by decide)
  exact_mod_cast this

end Spf.Props
