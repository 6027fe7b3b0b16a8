import Verif.Proof.SchedFrame
import Verif.Proof.NoiseGraph
import Verif.Proof.FluentRun
import Verif.Props.FluentMulProg
import Verif.Spec.Computer
/-! C104: `FheComputer::pack_int` and `unpack_int` on ciphertexts. -/
namespace Spf.Props
open Spf.Spec Spf.Fhe Spf.Fluent Spf.Tfhe Spf.CtExec Spf.Sched Graph

/-! ### the circuits -/

theorem outsIn_of_good {deg : Nat} {ins : List (CtType × Nat)} {g : FGraph} (hg : Good deg (fun _ => ioOf ins []) g) : OutsIn g [] :=
  ⟨fun n t c hn => hg.ops n _ hn, fun n n' t c hn _ => by
    have : ((t, c) : CtType × Nat) ∈ ([] : List (CtType × Nat)) := hg.ops n _ hn
    cases this⟩

theorem ioOf_mono {ins outs : List (CtType × Nat)} {op : FheOp} (h : ioOf ins [] op) : ioOf ins outs op := by
  cases op <;> first | exact h | (exact absurd h (by simp [ioOf]))

theorem packInt_ok {deg : Nat} {ins : List Nat} (h0 : 0 < ins.length) (hd : ins.length ≤ deg) (out : Nat) :
    ∃ g, packInt deg ins out = some g ∧ Live g ∧ Good deg (fun _ => ioOf (ins.map (.glwe1, ·)) [(.glwe1, out)]) g ∧ OutsIn g [(.glwe1, out)] ∧
      ∀ (cells : CtType → Nat → Val) (m : Nat → Bool), (∀ c ∈ ins, cells .glwe1 c = ctOf .glwe1 (m c)) →
        Writes deg cells g .glwe1 out (.glwe1 fun j => (ins.map m).getD j false) := by
  obtain ⟨s1, a1, l1, v1⟩ := graphInputs_ok (d := deg) (io := fun _ => ioOf (ins.map (.glwe1, ·)) []) .glwe1 ins Ctx.new.circuit (by intro e he; cases he)
    (fun c hc n => List.mem_map.2 ⟨c, hc, rfl⟩)
  obtain ⟨g2, p, e2, _, s2, a2, v2⟩ := pack_ok (deg := deg) (io := fun _ => ioOf (ins.map (.glwe1, ·)) []) s1.live a1 (by omega) (by omega)
  have hw : ∀ n ∈ [p.id], (g2.weight n).isSome := fun _ h => AreNodes.live a2 h
  obtain ⟨g3, os, e3, s3, l3, q3, w3, v3⟩ := collectOutputs_ok .glwe1 [p.id] [out] g2 s2.live rfl hw
  have hg2 : Good deg (fun _ => ioOf (ins.map (.glwe1, ·)) []) g2 := s2.good (s1.good (good_new fun _ op h => ioOf_internal _ _ h))
  refine ⟨g3, ?_, s3.live, q3 deg _ (fun c hc n => ?_) a2 (good_mono hg2 fun _ _ h => ioOf_mono h), ?_, fun cells m hm => ?_⟩
  · simp only [packInt, e2, e3]
  · simpa [ioOf] using hc
  · have := collectOutputs_outs .glwe1 [p.id] [out] g2 [] _ rfl hw e3 (outsIn_of_good hg2) (by simp)
    simpa using this
  · have hb : Holds deg cells (graphInputs .glwe1 ins Ctx.new.circuit).1 .glwe1 (graphInputs .glwe1 ins Ctx.new.circuit).2 (ins.map m) := by
      have := v1 deg cells
      unfold Holds
      rw [List.forall₂_map_right_iff]
      refine (List.forall₂_iff_get.2 ⟨this.length_eq, fun i h1 h2 => ?_⟩)
      have hx := (List.forall₂_iff_get.1 this).2 i h1 h2
      rw [hm _ (List.get_mem _ _)] at hx
      exact hx
    have hx := v3 deg cells [.glwe1 fun j => (ins.map m).getD j false] (.cons ⟨v2 cells _ hb, rfl⟩ .nil)
    match os, w3, hx with
    | [o], .cons h1 .nil, .cons h2 .nil => exact ⟨o, h1, h2⟩

theorem unpackInt_ok {deg w : Nat} (hdeg : 0 < deg) (hd : w ≤ deg) (inp : Nat) {outs : List Nat} (hlen : outs.length = w) (hnd : outs.Nodup) :
    ∃ g, unpackInt w inp outs = some g ∧ Live g ∧ Good deg (fun _ => ioOf [(.glwe1, inp)] (outs.map (.glwe1, ·))) g ∧ OutsIn g (outs.map (.glwe1, ·)) ∧
      ∀ (cells : CtType → Nat → Val) (p : Nat → Bool), cells .glwe1 inp = .glwe1 p → ∀ i c : Nat, outs[i]? = some c → Writes deg cells g .glwe1 c (ctOf .glwe1 (p i)) := by
  have s1 := leaf_step (d := deg) (io := fun _ => ioOf [(.glwe1, inp)] []) (g := Ctx.new.circuit) (by intro e he; cases he) (.input .glwe1 inp) (fun _ => rfl)
    (Or.inr fun n => by simp [ioOf])
  have w1 : (Ctx.new.circuit.addNode (.input .glwe1 inp)).1.weight (Ctx.new.circuit.addNode (.input .glwe1 inp)).2 = some (.input .glwe1 inp) := by
    rw [addNode_ext1]; exact ext1_weight _ _ _
  have v1 : ∀ cells : CtType → Nat → Val, FEval deg cells (Ctx.new.circuit.addNode (.input .glwe1 inp)).1 (Ctx.new.circuit.addNode (.input .glwe1 inp)).2 (cells .glwe1 inp) :=
    fun cells => leaf_eval (by intro e he; cases he) rfl
  have hg1 := s1.good (good_new fun _ op h => ioOf_internal _ _ h)
  obtain ⟨g2, ns, e2, s2, a2, l2, q2, v2⟩ := unpackFrom_ok deg (Ctx.new.circuit.addNode (.input .glwe1 inp)).2 (io := fun _ => ioOf [(.glwe1, inp)] []) w 0 _ s1.live (by rw [w1]; rfl)
  have hg2 := q2 (by omega) (AreNodes.cons.2 ⟨⟨_, w1, rfl⟩, by intro n hn; cases hn⟩) hg1
  obtain ⟨g3, ms, e3, s3, a3, l3, v3⟩ := convertAll_ok (deg := deg) (io := fun _ => ioOf [(.glwe1, inp)] []) hdeg .lwe1 .glwe1 ns g2 s2.live a2
  have hg3 := s3.good hg2
  obtain ⟨g4, os, e4, s4, l4, q4, w4, v4⟩ := collectOutputs_ok .glwe1 ms outs g3 s3.live (by omega) (fun _ h => AreNodes.live a3 h)
  refine ⟨g4, ?_, s4.live, q4 deg _ (fun c hc n => ?_) a3 (good_mono hg3 fun _ _ h => ioOf_mono h), ?_, fun cells p hp i c hi => ?_⟩
  · simp only [unpackInt, unpack, e2, e3, e4, l3, l2, hlen, if_true]
  · exact List.mem_map.2 ⟨c, hc, rfl⟩
  · have := collectOutputs_outs .glwe1 ms outs g3 [] _ (by omega) (fun _ h => AreNodes.live a3 h) e4 (outsIn_of_good hg3) (by
      simp only [List.nil_append]
      exact hnd.map fun a b h => by simpa using h)
    simpa using this
  · have h1 := v1 cells
    rw [hp] at h1
    have h3 := v3 cells _ (v2 (by omega) cells p h1)
    have h4 := v4 deg cells (((List.range' 0 w).map p).map (ctOf .glwe1)) (List.forall₂_map_right_iff.2 (h3.imp fun n b hx => ⟨hx, ctOf_type _ b⟩))
    have hiw : i < outs.length := (List.getElem?_eq_some_iff.1 hi).1
    have ho : i < os.length := by rw [w4.length_eq]; exact hiw
    have x1 := (List.forall₂_iff_get.1 w4).2 i ho hiw
    have x2 := (List.forall₂_iff_get.1 h4).2 i ho (by simp; omega)
    simp only [List.get_eq_getElem, List.getElem_map, List.getElem_range', Nat.zero_add, Nat.one_mul] at x1 x2
    rw [(List.getElem?_eq_some_iff.1 hi).2] at x1
    exact ⟨_, x1, x2⟩

/-! ### on ciphertexts -/

variable {W : Nat}

/-- As `run_ok`, for inputs that hold their messages up to the noise `nz`: the outputs hold theirs up to the noise found by the analysis, and
no other cell is changed. -/
theorem run_holds_frame {n v : Nat} {P : EvalParams} {ν : NoiseLevels} {s : List Bool} {sk : List (List (BitVec W))} (hs : SecretOk P n ν s sk) {K : EvalKey W} (hK : Setting W n v P s sk ν K)
    {err : FheOp → List (Ct W × FheEdge) → OpErr W} (he : ∀ op ins, ErrOk P n ν.fft (err op ins)) {g : FGraph} {ins outs : List (CtType × Nat)} (b3 : Live g)
    (b4 : Good P.degree (fun _ => ioOf ins outs) g) (b5 : OutsIn g outs) (hdis : ∀ p ∈ ins, p ∉ outs) {vals : CtType → Nat → Val} {nz : CtType → Nat → Nat}
    {cells : CtType × Nat → Ct W} (htyp : ∀ p ∈ ins, (vals p.1 p.2).type = p.1) (hin : ∀ p ∈ ins, CtHolds P (bitKey W s) sk (nz p.1 p.2) (cells p) (vals p.1 p.2))
    {Q : FheOp → Nat → Prop} (hnz : AllN (noiseOp W P ν nz) Q g) :
    RunsTo P K err g cells fun cells' => (∀ t c u, Writes P.degree (typed vals) g t c u → ∃ B, Q (.output t c) B ∧ CtHolds P (bitKey W s) sk B (cells' (t, c)) u) ∧
      ∀ t c, (t, c) ∉ outs → cells' (t, c) = cells (t, c) := by
  have hP := hK.params
  refine ⟨topo_exists b3 fun n hn => b4.runs (fun t _ => ctOf t false) (fun t _ => ctOf_type t false) n hn, fun ord ht => ?_⟩
  obtain ⟨items, i1, _⟩ := C16_spawn (gs := [(g, ord)]) (by intro p hp; rw [List.mem_singleton.1 hp]; exact ht)
  have hap : Apart [(g, ord)] := by
    have one : ∀ (k : Nat) (p : FGraph × List Nat), [(g, ord)][k]? = some p → k = 0 ∧ p = (g, ord) := by
      intro k p hp
      match k, hp with
      | 0, hp => cases hp; exact ⟨rfl, rfl⟩
    constructor
    · intro k k' p p' n n' t c hk hk' hn hn'
      obtain ⟨rfl, rfl⟩ := one k p hk
      obtain ⟨rfl, rfl⟩ := one k' p' hk'
      exact ⟨rfl, b5.2 n n' t c hn hn'⟩
    · intro k k' p p' n n' t c hk hk' hn hn'
      obtain ⟨rfl, rfl⟩ := one k p hk
      obtain ⟨rfl, rfl⟩ := one k' p' hk'
      exact hdis _ (b4.ops n _ hn) (b5.1 n' t c hn')
  refine ⟨items, i1, fun threads tokens st hr hf => ?_⟩
  have hct := typed_typed vals
  have hsink : ∀ e ∈ g.edges, ∀ t c, g.weight e.1 ≠ some (.output t c) := by
    intro e he' t c hw
    obtain ⟨op, t', w1, w2⟩ := b4.edge e he'
    rw [hw] at w1; cases w1
    simp [opType] at w2
  have hI := interp_execCt P K err
  have hone : ∀ p ∈ [(g, ord)], TopoOrder p.1 p.2 := fun p hp => by rw [List.mem_singleton.1 hp]; exact ht
  have hheld : ∀ a t c, g.weight a = some (.input t c) → Held P n (bitKey W s) sk (nz t c) ((fun t c => cells (t, c)) t c) (typed vals t c) := by
    intro a t c hw
    have hmem : (t, c) ∈ ins := b4.ops a _ hw
    have := hin _ hmem
    rw [typed_eq (htyp _ hmem)]
    exact (holds_iff hP hs.key _ _).1 this
  have hfired : st.fired 0 = [none] := by
    refine (SchedG.sched19_circuits hI hone hap i1 hr hf (k := 0) (g := g) (ord := ord) rfl).1 ⟨fun a op hw => ?_, hsink⟩
    right
    obtain ⟨u, hu⟩ := b4.runs (typed vals) hct a (by rw [hw]; rfl)
    obtain ⟨B, hB, _⟩ := hnz a op hw
    obtain ⟨c, c1, _⟩ := nodeEval_ok hK he hheld hu hB
    exact ⟨c, c1⟩
  refine ⟨hfired, ?_, fun t c hn => SchedG.frame_circuits hone i1 hr fun p hp n hw => hn (b5.1 n t c (by rw [List.mem_singleton.1 hp] at hw; exact hw))⟩
  rintro t c u ⟨a, hw, hu⟩
  obtain ⟨B, hB, hq⟩ := hnz a _ hw
  obtain ⟨x, x1, x2⟩ := SchedG.sched16_circuits hI hone hap i1 hr (k := 0) (g := g) (ord := ord) rfl (by rw [hfired]; simp) hw
  obtain ⟨y, y1, y2⟩ := nodeEval_ok hK he hheld hu hB
  refine ⟨B, hq, ?_⟩
  rw [x2, SchedG.NodeEval.unique x1 y1]
  exact (holds_iff hP hs.key _ _).2 y2

theorem RunsTo.mono {P : EvalParams} {K : EvalKey W} {err : FheOp → List (Ct W × FheEdge) → OpErr W} {g : FGraph} {cells : CtType × Nat → Ct W}
    {p q : (CtType × Nat → Ct W) → Prop} (h : RunsTo P K err g cells p) (hpq : ∀ c, p c → q c) : RunsTo P K err g cells q :=
  ⟨h.1, fun ord ht => by
    obtain ⟨items, i1, i2⟩ := h.2 ord ht
    exact ⟨items, i1, fun threads tokens st hr hf => ⟨(i2 threads tokens st hr hf).1, hpq _ (i2 threads tokens st hr hf).2⟩⟩⟩

theorem run_holds {n v : Nat} {P : EvalParams} {ν : NoiseLevels} {s : List Bool} {sk : List (List (BitVec W))} (hs : SecretOk P n ν s sk) {K : EvalKey W} (hK : Setting W n v P s sk ν K)
    {err : FheOp → List (Ct W × FheEdge) → OpErr W} (he : ∀ op ins, ErrOk P n ν.fft (err op ins)) {g : FGraph} {ins outs : List (CtType × Nat)} (b3 : Live g)
    (b4 : Good P.degree (fun _ => ioOf ins outs) g) (b5 : OutsIn g outs) (hdis : ∀ p ∈ ins, p ∉ outs) {vals : CtType → Nat → Val} {nz : CtType → Nat → Nat}
    {cells : CtType × Nat → Ct W} (htyp : ∀ p ∈ ins, (vals p.1 p.2).type = p.1) (hin : ∀ p ∈ ins, CtHolds P (bitKey W s) sk (nz p.1 p.2) (cells p) (vals p.1 p.2))
    {Q : FheOp → Nat → Prop} (hnz : AllN (noiseOp W P ν nz) Q g) :
    RunsTo P K err g cells fun cells' => ∀ t c u, Writes P.degree (typed vals) g t c u → ∃ B, Q (.output t c) B ∧ CtHolds P (bitKey W s) sk B (cells' (t, c)) u :=
  RunsTo.mono (run_holds_frame hs hK he b3 b4 b5 hdis htyp hin hnz) fun _ h => h.1

theorem sum_const {l : List Nat} {f : Nat → Nat} {B : Nat} (h : ∀ x ∈ l, f x = B) : (l.map f).sum = l.length * B := by
  rw [List.map_congr_left h, List.map_const', List.sum_replicate]; rfl

section
variable {n v : Nat} {P : EvalParams} {ν : NoiseLevels} {s : List Bool} {sk : List (List (BitVec W))} {K : EvalKey W}

theorem pack_run (hs : SecretOk P n ν s sk) (hK : Setting W n v P s sk ν K)
    {err : FheOp → List (Ct W × FheEdge) → OpErr W} (he : ∀ op ins, ErrOk P n ν.fft (err op ins)) {ins : List Nat} {out : Nat} (h0 : 0 < ins.length) (hd : ins.length ≤ P.degree)
    (hout : out ∉ ins) {B : Nat} {cells : CtType × Nat → Ct W} {m : Nat → Bool} (hin : ∀ c ∈ ins, CtHolds P (bitKey W s) sk B (cells (.glwe1, c)) (ctOf .glwe1 (m c))) :
    ∃ g, packInt P.degree ins out = some g ∧ RunsTo P K err g cells fun cells' =>
      CtHolds P (bitKey W s) sk (ins.length * B) (cells' (.glwe1, out)) (.glwe1 fun j => (ins.map m).getD j false) := by
  obtain ⟨g, e1, e2, e3, e4, e5⟩ := packInt_ok h0 hd out
  refine ⟨g, e1, RunsTo.mono (run_holds hs hK he e2 e3 e4 (by
    intro p hp hp'
    obtain ⟨c, hc, rfl⟩ := List.mem_map.1 hp
    simp only [List.mem_singleton, Prod.mk.injEq, true_and] at hp'
    exact hout (hp' ▸ hc)) (vals := fun t c => ctOf t (m c)) (nz := fun _ _ => B) (fun p _ => ctOf_type _ _) (by
    intro p hp
    obtain ⟨c, hc, rfl⟩ := List.mem_map.1 hp
    exact hin c hc) (packInt_noise e1)) ?_⟩
  intro cells' h
  have hty : typed (fun t c => ctOf t (m c)) = fun t c => ctOf t (m c) := by
    funext t c; exact typed_eq (ctOf_type _ _)
  rw [hty] at h
  obtain ⟨B', q, hh⟩ := h .glwe1 out _ (e5 _ m fun c _ => rfl)
  rw [q _ _ rfl, sum_const fun _ _ => rfl] at hh
  exact hh

theorem unpack_run (hs : SecretOk P n ν s sk) (hK : Setting W n v P s sk ν K)
    {err : FheOp → List (Ct W × FheEdge) → OpErr W} (he : ∀ op ins, ErrOk P n ν.fft (err op ins)) {inp : Nat} {outs : List Nat} (hd : outs.length ≤ P.degree)
    (hnd : outs.Nodup) (hout : inp ∉ outs) {B : Nat} (hB : B + ksNoise W P ν < bootLimit W P ν) {cells : CtType × Nat → Ct W} {p : Nat → Bool}
    (hin : CtHolds P (bitKey W s) sk B (cells (.glwe1, inp)) (.glwe1 p)) :
    ∃ g, unpackInt outs.length inp outs = some g ∧ RunsTo P K err g cells fun cells' => ∀ i c : Nat, outs[i]? = some c →
      CtHolds P (bitKey W s) sk (muxNoise W P ν (bootNoise W P ν)) (cells' (.glwe1, c)) (ctOf .glwe1 (p i)) := by
  have hdeg : 0 < P.degree := by rw [hK.params.degree]; exact Nat.two_pow_pos n
  obtain ⟨g, e1, e2, e3, e4, e5⟩ := unpackInt_ok hdeg hd inp rfl hnd
  refine ⟨g, e1, RunsTo.mono (run_holds hs hK he e2 e3 e4 (by
    intro q hq hq'
    rw [List.mem_singleton.1 hq] at hq'
    obtain ⟨c, hc, h⟩ := List.mem_map.1 hq'
    simp only [Prod.mk.injEq, true_and] at h
    exact hout (h ▸ hc)) (vals := fun t c => if t = .glwe1 then .glwe1 p else ctOf t false) (nz := fun _ _ => B) (by
      intro q hq; rw [List.mem_singleton.1 hq]; rfl) (by
    intro q hq
    rw [List.mem_singleton.1 hq]
    exact hin) (unpackInt_noise (by exact hB) e1)) ?_⟩
  intro cells' h i c hi
  obtain ⟨B', q, hh⟩ := h .glwe1 c _ (e5 _ p (by rw [typed_eq rfl]; rfl) i c hi)
  rw [q _ _ rfl] at hh
  exact hh
end

/-- **C104, packing.** `pack_int` on any integer of 1 to `degree` encrypted bits (the bit in the cell `c` is `m c`; least significant first): the circuit is built without
panicking, and whatever the schedule, the run succeeds and the output ciphertext holds the polynomial whose coefficients are the bits, followed by zeros, with noise at most
the sum of the noises of the inputs; if that is below a quarter of the torus the client decrypts it to this polynomial. -/
theorem C104_pack {n v : Nat} {P : EvalParams} (hP : ParamsOk W n v P) {ν : NoiseLevels} {s : List Bool} {sk : List (List (BitVec W))} (hs : SecretOk P n ν s sk)
    (checked : Bool) {D : KeyDraws W} (hD : DrawsOk P n ν D) :
    ∃ K, computeKeyGen checked P (bitKey W s) sk D = some K ∧ ∀ err : FheOp → List (Ct W × FheEdge) → OpErr W, (∀ op ins, ErrOk P n ν.fft (err op ins)) →
      ∀ (ins : List Nat) (out : Nat), 0 < ins.length → ins.length ≤ P.degree → out ∉ ins → ∃ g, packInt P.degree ins out = some g ∧
        ∀ (B : Nat) (cells : CtType × Nat → Ct W) (m : Nat → Bool), (∀ c ∈ ins, CtHolds P (bitKey W s) sk B (cells (.glwe1, c)) (ctOf .glwe1 (m c))) →
          RunsTo P K err g cells fun cells' =>
            CtHolds P (bitKey W s) sk (ins.length * B) (cells' (.glwe1, out)) (.glwe1 fun j => (ins.map m).getD j false) ∧
            (ins.length * B < 2 ^ (W - 2) → CtDecrypts P (bitKey W s) sk (cells' (.glwe1, out)) (.glwe1 fun j => (ins.map m).getD j false)) := by
  obtain ⟨K, k1, k2⟩ := keygen_ok hP hs checked hD
  refine ⟨K, k1, fun err he ins out h0 hd hout => ?_⟩
  obtain ⟨g, e1, _⟩ := packInt_ok h0 hd out
  refine ⟨g, e1, fun B cells m hin => ?_⟩
  obtain ⟨g', e1', e2⟩ := pack_run hs k2 he h0 hd hout hin
  rw [e1] at e1'; cases e1'
  exact RunsTo.mono e2 fun cells' h => ⟨h, fun hB => held_decrypts hP hs ((holds_iff hP hs.key _ _).1 h) hB⟩

/-- **C104, unpacking.** `unpack_int` on any ciphertext that holds a polynomial of bits, up to a noise that the bootstrap removes: the output ciphertext for bit `i` holds
coefficient `i`, with a noise that does not depend on the input; if that is below a quarter of the torus the client decrypts it to this bit. -/
theorem C104_unpack {n v : Nat} {P : EvalParams} (hP : ParamsOk W n v P) {ν : NoiseLevels} {s : List Bool} {sk : List (List (BitVec W))} (hs : SecretOk P n ν s sk)
    (checked : Bool) {D : KeyDraws W} (hD : DrawsOk P n ν D) :
    ∃ K, computeKeyGen checked P (bitKey W s) sk D = some K ∧ ∀ err : FheOp → List (Ct W × FheEdge) → OpErr W, (∀ op ins, ErrOk P n ν.fft (err op ins)) →
      ∀ (w inp : Nat) (outs : List Nat), w ≤ P.degree → outs.length = w → outs.Nodup → inp ∉ outs → ∃ g, unpackInt w inp outs = some g ∧
        ∀ (B : Nat) (cells : CtType × Nat → Ct W) (p : Nat → Bool), CtHolds P (bitKey W s) sk B (cells (.glwe1, inp)) (.glwe1 p) → B + ksNoise W P ν < bootLimit W P ν →
          RunsTo P K err g cells fun cells' => ∀ i c : Nat, outs[i]? = some c →
            CtHolds P (bitKey W s) sk (muxNoise W P ν (bootNoise W P ν)) (cells' (.glwe1, c)) (ctOf .glwe1 (p i)) ∧
            (muxNoise W P ν (bootNoise W P ν) < 2 ^ (W - 2) → CtDecrypts P (bitKey W s) sk (cells' (.glwe1, c)) (ctOf .glwe1 (p i))) := by
  obtain ⟨K, k1, k2⟩ := keygen_ok hP hs checked hD
  refine ⟨K, k1, fun err he w inp outs hd hlen hnd hout => ?_⟩
  subst hlen
  have hdeg : 0 < P.degree := by rw [hP.degree]; exact Nat.two_pow_pos n
  obtain ⟨g, e1, _⟩ := unpackInt_ok hdeg hd inp rfl hnd
  refine ⟨g, e1, fun B cells p hin hB => ?_⟩
  obtain ⟨g', e1', e2⟩ := unpack_run hs k2 he hd hnd hout hB hin
  rw [e1] at e1'; cases e1'
  exact RunsTo.mono e2 fun cells' h i c hi => ⟨h i c hi, fun hm => held_decrypts hP hs ((holds_iff hP hs.key _ _).1 (h i c hi)) hm⟩

/-- **C104, there and back.** Packing an encrypted integer and unpacking the result yields, whatever the two schedules, ciphertexts of the same bits in the same order, with
a noise that does not depend on the noise of the original ones, provided the sum of those is one that the bootstrap removes. -/
theorem C104_roundtrip {n v : Nat} {P : EvalParams} (hP : ParamsOk W n v P) {ν : NoiseLevels} {s : List Bool} {sk : List (List (BitVec W))} (hs : SecretOk P n ν s sk)
    (checked : Bool) {D : KeyDraws W} (hD : DrawsOk P n ν D) :
    ∃ K, computeKeyGen checked P (bitKey W s) sk D = some K ∧ ∀ err : FheOp → List (Ct W × FheEdge) → OpErr W, (∀ op ins, ErrOk P n ν.fft (err op ins)) →
      ∀ (ins outs : List Nat) (mid : Nat), 0 < ins.length → ins.length ≤ P.degree → mid ∉ ins → outs.length = ins.length → outs.Nodup → mid ∉ outs →
        ∃ g₁ g₂, packInt P.degree ins mid = some g₁ ∧ unpackInt ins.length mid outs = some g₂ ∧
          ∀ (B : Nat) (cells : CtType × Nat → Ct W) (m : Nat → Bool), (∀ c ∈ ins, CtHolds P (bitKey W s) sk B (cells (.glwe1, c)) (ctOf .glwe1 (m c))) →
            ins.length * B + ksNoise W P ν < bootLimit W P ν → muxNoise W P ν (bootNoise W P ν) < 2 ^ (W - 2) →
            RunsTo P K err g₁ cells fun cells₁ => RunsTo P K err g₂ cells₁ fun cells₂ => ∀ i c c' : Nat, ins[i]? = some c → outs[i]? = some c' →
              CtDecrypts P (bitKey W s) sk (cells₂ (.glwe1, c')) (ctOf .glwe1 (m c)) := by
  obtain ⟨K, k1, k2⟩ := keygen_ok hP hs checked hD
  refine ⟨K, k1, fun err he ins outs mid h0 hd hmi hlen hnd hmo => ?_⟩
  have hdeg : 0 < P.degree := by rw [hP.degree]; exact Nat.two_pow_pos n
  obtain ⟨g₁, e1, _⟩ := packInt_ok h0 hd mid
  obtain ⟨g₂, e2, _⟩ := unpackInt_ok hdeg hd mid hlen hnd
  refine ⟨g₁, g₂, e1, e2, fun B cells m hin hB hm => ?_⟩
  obtain ⟨_, e1', r1⟩ := pack_run hs k2 he h0 hd hmi hin
  rw [e1] at e1'; cases e1'
  refine RunsTo.mono r1 fun cells₁ h1 => ?_
  obtain ⟨_, e2', r2⟩ := unpack_run hs k2 he (by omega) hnd hmo hB h1
  rw [hlen, e2] at e2'; cases e2'
  refine RunsTo.mono r2 fun cells₂ h2 i c c' hi hi' => ?_
  have := h2 i c' hi'
  rw [show (ins.map m).getD i false = m c by simp [List.getD, hi]] at this
  exact held_decrypts hP hs ((holds_iff hP hs.key _ _).1 this) hm

/-- **C104, rejection.** Packing no bits, or more than the degree, panics. -/
theorem C104_reject (deg : Nat) (ins : List Nat) (out : Nat) (h : ins.length = 0 ∨ deg < ins.length) : packInt deg ins out = none := by
  have hl : (graphInputs .glwe1 ins Ctx.new.circuit).2.length = ins.length :=
    (graphInputs_ok (d := deg) (io := fun _ _ => True) .glwe1 ins Ctx.new.circuit (by intro e he; cases he) fun _ _ _ => trivial).2.2.1
  simp only [packInt, pack, hl]
  rcases h with h | h
  · rw [if_neg (by omega : ¬ ins.length > 0)]; simp
  · rw [if_neg (by omega)]

/-! ### a concrete case -/

/-- The conditions of the round trip are met by small parameters, for 8 bits with the noise 1000. -/
theorem exComp : 8 ≤ exCtParams.degree ∧ 8 * 1000 + ksNoise 64 exCtParams exCtLevels < bootLimit 64 exCtParams exCtLevels ∧
    muxNoise 64 exCtParams exCtLevels (bootNoise 64 exCtParams exCtLevels) < 2 ^ (64 - 2) := by decide +kernel

example (err : FheOp → List (Ct 64 × FheEdge) → OpErr 64) (he : ∀ op ins, ErrOk exCtParams 4 exCtLevels.fft (err op ins)) :
    ∃ K g₁ g₂, computeKeyGen true exCtParams (bitKey 64 [true, true]) exCtSk exCtDraws = some K ∧ packInt exCtParams.degree [0, 1, 2, 3, 4, 5, 6, 7] 8 = some g₁ ∧
      unpackInt 8 8 [9, 10, 11, 12, 13, 14, 15, 16] = some g₂ ∧ ∀ (cells : CtType × Nat → Ct 64),
        (∀ c ∈ [0, 1, 2, 3, 4, 5, 6, 7], CtEncrypts exCtParams (bitKey 64 [true, true]) exCtSk 1000 (ctOf .glwe1 (Nat.testBit 201 c)) (cells (.glwe1, c))) →
        RunsTo exCtParams K err g₁ cells fun cells₁ => RunsTo exCtParams K err g₂ cells₁ fun cells₂ =>
          CtDecrypts exCtParams (bitKey 64 [true, true]) exCtSk (cells₂ (.glwe1, 12)) (ctOf .glwe1 true) := by
  obtain ⟨K, k1, k2⟩ := C104_roundtrip exCtParams_ok exCtSecret_ok true exCtDraws_ok
  obtain ⟨g₁, g₂, e1, e2, e3⟩ := k2 err he [0, 1, 2, 3, 4, 5, 6, 7] [9, 10, 11, 12, 13, 14, 15, 16] 8 (by decide) exComp.1 (by decide) rfl (by decide) (by decide)
  refine ⟨K, g₁, g₂, k1, e1, e2, fun cells hc => ?_⟩
  refine RunsTo.mono (e3 1000 cells (Nat.testBit 201) (fun c h => ?_) exComp.2.1 exComp.2.2) fun c1 h1 => RunsTo.mono h1 fun c2 h2 => h2 3 3 12 rfl rfl
  exact (holds_iff exCtParams_ok exCtSecret_ok.key _ _).2 (encrypts_held exCtParams_ok exCtSecret_ok (hc c h))

end Spf.Props
