import Verif.Proof.FluentRun
import Verif.Props.CtExec
import Verif.Props.SchedGraph
/-! Fluent programs run on ciphertexts: from the client's integers, through encryption, the circuit built by the library calls, the
parallel executor and the homomorphic operators, to decryption. -/
namespace Spf.Props
open Spf.Spec Spf.Fhe Spf.Fluent Spf.Tfhe Spf.CtExec Spf.Sched Graph

/-- the operators of the circuit of a program with the given input and output cells -/
def ioOf (ins outs : List (CtType × Nat)) : FheOp → Prop
  | .input t c => (t, c) ∈ ins
  | .output t c => (t, c) ∈ outs
  | .nop | .retire => False
  | _ => True

theorem ioOf_internal (ins outs : List (CtType × Nat)) {op : FheOp} (h : Internal op) : ioOf ins outs op := by
  obtain ⟨⟨t, h1⟩, h2⟩ := h
  cases op <;> first | trivial | (simp [opType] at h1; done) | skip
  exact absurd rfl (h2 _ _)

theorem good_new {deg : Nat} {io : Nat → FheOp → Prop} (h : ∀ n op, Internal op → io n op) : Good deg io Ctx.new.circuit where
  internal := h
  edge := by intro e he; cases he
  runs := by intro cells _ n hn; simp [Ctx.new, Graph.weight, Graph.empty] at hn
  ops := by intro n op hn; simp [Ctx.new, Graph.weight, Graph.empty] at hn

theorem good_mono {deg : Nat} {io io' : Nat → FheOp → Prop} {g : FGraph} (hg : Good deg io g) (h : ∀ n op, io n op → io' n op) : Good deg io' g :=
  ⟨fun n op ho => h n op (hg.internal n op ho), hg.edge, hg.runs, fun n op hn => h n op (hg.ops n op hn)⟩

/-- contents of the right kind in the cells that are not read -/
def typed (vals : CtType → Nat → Val) (t : CtType) (c : Nat) : Val := if (vals t c).type = t then vals t c else ctOf t false

theorem typed_typed (vals : CtType → Nat → Val) : CellsTyped (typed vals) := by
  intro t c
  unfold typed
  split
  · assumption
  · exact ctOf_type t false

theorem inputs_typed {vals : CtType → Nat → Val} {env : Nat → Int} {prog : List Instr} (h : InputsOk vals env prog) :
    ∀ i ∈ prog, ∀ p ∈ instrCells i, (vals p.1 p.2).type = p.1 := by
  intro i hi p hp
  have hi' := h i hi
  cases i <;> simp only [instrCells, List.not_mem_nil, List.mem_singleton, List.mem_map] at hp
  · obtain ⟨c, hc, rfl⟩ := hp
    obtain ⟨bits, b1, _⟩ := hi'
    obtain ⟨j, hj, rfl⟩ := List.mem_iff_getElem.1 hc
    have := (List.forall₂_iff_get.1 b1).2 j hj (by rw [← b1.length_eq]; exact hj)
    rw [List.get_eq_getElem] at this
    simp only [this, ctOf_type]
  · subst hp
    simp only at hi'
    rw [hi', ctOf_type]
  · subst hp
    obtain ⟨poly, p1, _⟩ := hi'
    simp only [p1]; rfl

theorem typed_eq {vals : CtType → Nat → Val} {t c} (h : (vals t c).type = t) : typed vals t c = vals t c := if_pos h

theorem inputs_of_typed {vals : CtType → Nat → Val} {env : Nat → Int} {prog : List Instr} (h : InputsOk vals env prog) : InputsOk (typed vals) env prog := by
  intro i hi
  have hi' := h i hi
  have ht := inputs_typed h i hi
  cases i <;> simp only at hi' ⊢
  · rename_i s t x cs
    obtain ⟨bits, b1, b2⟩ := hi'
    refine ⟨bits, ?_, b2⟩
    have ht' : ∀ c ∈ cs, typed vals t c = vals t c := fun c hc => typed_eq (ht (t, c) (List.mem_map.2 ⟨c, hc, rfl⟩))
    clear ht h hi b2
    induction b1 with
    | nil => exact .nil
    | cons hx _ ih => exact .cons (by rw [ht' _ (by simp)]; exact hx) (ih fun c hc => ht' c (by simp [hc]))
  · rename_i t x c
    rw [typed_eq (ht (t, c) (by simp [instrCells]))]; exact hi'
  · rename_i s w x c
    obtain ⟨poly, p1, p2⟩ := hi'
    exact ⟨poly, by rw [typed_eq (ht (.glwe1, c) (by simp [instrCells]))]; exact p1, p2⟩

theorem limit_type (W : Nat) (P : EvalParams) (u : Val) : decryptLimit W P (ctOf u.type false) = decryptLimit W P u := by cases u <;> rfl

/-- What building an accepted program and collecting its outputs guarantees. -/
theorem build_ok {lib : BddLib} (hlib : BddLibOk lib) {deg : Nat} (hdeg : 0 < deg) {prog : List Instr} {tys : List Ty} (hck : check deg prog [] = some tys)
    {outs : List (Nat × List Nat)} (ho : OutsOk prog tys outs) :
    ∃ ctx hs g, exec lib deg prog Ctx.new [] = some (ctx, hs) ∧ collectAll hs outs ctx.circuit = some g ∧ Live g ∧
      Good deg (fun _ => ioOf (prog.flatMap instrCells) (outCells tys outs)) g ∧ OutsIn g (outCells tys outs) ∧
      ∀ cells env, InputsOk cells env prog → ∃ vs, meaning env prog [] = some vs ∧ ∀ o ∈ outs, ∃ ty h v, tys[o.1]? = some ty ∧ vs[o.1]? = some v ∧
        Decrypts deg cells ctx.circuit ty h v ∧ ∃ os, List.Forall₂ (fun n c => g.weight n = some (.output (outKind ty) c)) os o.2 ∧
          ∀ us, List.Forall₂ (fun n u => FEval deg cells ctx.circuit n u ∧ u.type = outKind ty) (handleNodes h).2 us → List.Forall₂ (FEval deg cells g) os us := by
  obtain ⟨ctx, hs, h1, h2, h3, h4, h5⟩ := exec_ok (io := fun _ => ioOf (prog.flatMap instrCells) []) hlib hdeg prog Ctx.new [] [] ctxOk_new .nil hck
    (fun i hi p hp _ => List.mem_flatMap.2 ⟨i, hi, hp⟩)
  have hg := h3.good (good_new fun _ op h => ioOf_internal _ _ h)
  obtain ⟨g, c1, c2, c3, c4, c5⟩ := collectAll_ok outs ctx.circuit h2.live h4 ho.width
  refine ⟨ctx, hs, g, h1, c1, c2.live, c3 deg _ (fun p hp _ => hp) (good_mono hg ?_), ?_, ?_⟩
  · intro n op h
    cases op <;> first | exact h | (exact absurd h (by simp [ioOf]))
  · have := c4 [] ⟨fun n t c hn => ?_, fun n n' t c hn _ => ?_⟩ (by simpa using ho.distinct)
    · simpa using this
    · exact hg.ops n _ hn
    · have : ((t, c) : CtType × Nat) ∈ ([] : List (CtType × Nat)) := hg.ops n _ hn
      cases this
  · intro cells env hi
    obtain ⟨vs, v1, v2, v3, v4⟩ := h5 cells env [] hi ⟨rfl, rfl, by intro k _ _ _ hk; cases hk⟩
    refine ⟨vs, v1, fun o hoo => ?_⟩
    obtain ⟨ty, t1, _⟩ := ho.width o hoo
    have hlt : o.1 < hs.length := by rw [← v2]; exact (List.getElem?_eq_some_iff.1 t1).1
    have hlt' : o.1 < vs.length := by rw [v3]; exact hlt
    have hh := List.getElem?_eq_getElem hlt
    have hv := List.getElem?_eq_getElem hlt'
    obtain ⟨os, d1, d2⟩ := c5 o hoo ty _ t1 hh
    exact ⟨ty, hs[o.1], vs[o.1], t1, hv, v4 _ _ _ _ t1 hh hv, os, d1, d2 deg cells⟩

/-- **C100, construction.** For every accepted program and every choice of results to collect into fresh cells, the library calls build a circuit
without panicking; the circuit has a topological order, `spawn_graph` accepts it for every such order, and no operation of it fails, whatever the
contents of its input cells (of the right kinds): every node has a value. -/
theorem C100_build_partial {lib : BddLib} (hlib : BddLibOk lib) {deg : Nat} (hdeg : 0 < deg) {prog : List Instr} {tys : List Ty}
    (hck : check deg prog [] = some tys) {outs : List (Nat × List Nat)} (ho : OutsOk prog tys outs) :
    ∃ ctx hs g, exec lib deg prog Ctx.new [] = some (ctx, hs) ∧ collectAll hs outs ctx.circuit = some g ∧ (∃ ord, TopoOrder g ord) ∧
      (∀ ord, TopoOrder g ord → ∃ items, spawnAll [(g, ord)] 0 0 = some items) ∧ (∀ ord, TopoOrder g ord → Apart [(g, ord)]) ∧
      (∀ a t c, g.weight a = some (.input t c) → ∃ i ∈ prog, (t, c) ∈ instrCells i) ∧
      ∀ vals : CtType → Nat → Val, (∀ t c, (vals t c).type = t) → ∀ n, (g.weight n).isSome → ∃ u, FEval deg vals g n u := by
  obtain ⟨ctx, hs, g, h1, h2, h3, h4, h5, _⟩ := build_ok hlib hdeg hck ho
  have hin : ∀ a t c, g.weight a = some (.input t c) → ∃ i ∈ prog, (t, c) ∈ instrCells i := fun a t c ha => List.mem_flatMap.1 (h4.ops a _ ha)
  refine ⟨ctx, hs, g, h1, h2, topo_exists h3 fun n hn => h4.runs (fun t _ => ctOf t false) (fun t _ => ctOf_type t false) n hn, ?_, ?_, hin, h4.runs⟩
  · intro ord ht
    obtain ⟨items, i1, _⟩ := C16_spawn (gs := [(g, ord)]) (by intro p hp; rw [List.mem_singleton.1 hp]; exact ht)
    exact ⟨items, i1⟩
  · intro ord ht
    have one : ∀ (k : Nat) (p : FGraph × List Nat), [(g, ord)][k]? = some p → k = 0 ∧ p = (g, ord) := by
      intro k p hp
      match k, hp with
      | 0, hp => cases hp; exact ⟨rfl, rfl⟩
    constructor
    · intro k k' p p' n n' t c hk hk' hn hn'
      obtain ⟨rfl, rfl⟩ := one k p hk
      obtain ⟨rfl, rfl⟩ := one k' p' hk'
      exact ⟨rfl, h5.2 n n' t c hn hn'⟩
    · intro k k' p p' n n' t c hk hk' hn hn'
      obtain ⟨rfl, rfl⟩ := one k p hk
      obtain ⟨rfl, rfl⟩ := one k' p' hk'
      obtain ⟨i, i1, i2⟩ := hin n t c hn
      exact ho.fresh i i1 _ i2 (h5.1 n' t c hn')

variable {W : Nat}

/-- **C100.** Fluent programs compute on ciphertexts what they say on integers. Generate a compute key from any secret keys; take any accepted program over
encrypted integers and any choice of its results as outputs. If the client encrypts the integers `env` into the input cells, with noise at most `nz`, and the
static noise analysis accepts the circuit, then for every number of workers and of flow-control tokens and every schedule, when the run has finished the
completion callback has been called once, without error, and the client decrypts the output cells to the results of the plaintext program on `env`. (Partial:
as `C73_programs_partial` for the language, and the noise bounds are worst-case.) -/
theorem C100_run_partial {n v : Nat} {P : EvalParams} (hP : ParamsOk W n v P) {ν : NoiseLevels} {s : List Bool} {sk : List (List (BitVec W))} (hs : SecretOk P n ν s sk)
    (checked : Bool) {D : KeyDraws W} (hD : DrawsOk P n ν D) :
    ∃ K, computeKeyGen checked P (bitKey W s) sk D = some K ∧ ∀ err : FheOp → List (Ct W × FheEdge) → OpErr W, (∀ op ins, ErrOk P n ν.fft (err op ins)) →
      ∀ (lib : BddLib), BddLibOk lib → ∀ (prog : List Instr) (tys : List Ty) (outs : List (Nat × List Nat)), check P.degree prog [] = some tys → OutsOk prog tys outs →
        ∃ ctx hs g, exec lib P.degree prog Ctx.new [] = some (ctx, hs) ∧ collectAll hs outs ctx.circuit = some g ∧ (∃ ord, TopoOrder g ord) ∧
          ∀ ord, TopoOrder g ord → ∃ items, spawnAll [(g, ord)] 0 0 = some items ∧
            ∀ (env : Nat → Int) (vals : CtType → Nat → Val) (nz : CtType → Nat → Nat) (cells : CtType × Nat → Ct W), InputsOk vals env prog →
              (∀ i ∈ prog, ∀ p ∈ instrCells i, CtEncrypts P (bitKey W s) sk (nz p.1 p.2) (vals p.1 p.2) (cells p)) → NoiseFits W P ν nz g →
              ∀ threads tokens st, Reached (liftExec (execCt P K err)) threads tokens items cells st → Finished items st →
                st.fired 0 = [none] ∧ ∃ vs, meaning env prog [] = some vs ∧ ∀ o ∈ outs, ∃ ty v, tys[o.1]? = some ty ∧ vs[o.1]? = some v ∧
                  ReadsAs P (bitKey W s) sk st.cells o.2 ty v := by
  obtain ⟨K, k1, k2⟩ := C94_end_to_end_partial hP hs checked hD
  refine ⟨K, k1, fun err he lib hlib prog tys outs hck ho => ?_⟩
  have hdeg : 0 < P.degree := by rw [hP.degree]; exact Nat.two_pow_pos n
  obtain ⟨ctx, hs', g, b1, b2, b3, b4, b5, b6⟩ := build_ok hlib hdeg hck ho
  obtain ⟨ctx', hs'', g', a1, a2, a3, a4, a5, a6, a7⟩ := C100_build_partial hlib hdeg hck ho
  rw [b1] at a1; cases a1
  rw [b2] at a2; cases a2
  refine ⟨ctx, hs', g, b1, b2, a3, fun ord ht => ?_⟩
  obtain ⟨items, i1⟩ := a4 ord ht
  refine ⟨items, i1, fun env vals nz cells hin henc hnz threads tokens st hr hf => ?_⟩
  have hin' := inputs_of_typed hin
  have hct := typed_typed vals
  have hsink : ∀ e ∈ g.edges, ∀ t c, g.weight e.1 ≠ some (.output t c) := by
    intro e he' t c hw
    obtain ⟨op, t', w1, w2⟩ := b4.edge e he'
    rw [hw] at w1; cases w1
    simp [opType] at w2
  have hone : ∀ p ∈ [(g, ord)], p = (g, ord) := fun p hp => List.mem_singleton.1 hp
  obtain ⟨f1, f2⟩ := k2 err he [(g, ord)] cells (typed vals) nz (fun p hp => by rw [hone p hp]; exact ht) (a5 ord ht) (by
    intro p hp a t c hw
    rw [hone p hp] at hw
    obtain ⟨i, j1, j2⟩ := a6 a t c hw
    have := henc i j1 (t, c) j2
    rwa [← typed_eq (inputs_typed hin i j1 (t, c) j2)] at this) items i1 threads tokens st hr hf 0 g ord rfl
    ⟨fun a op hw => Or.inr (b4.runs (typed vals) hct a (by rw [hw]; rfl)), hsink⟩ (fun a op hw _ => by
      obtain ⟨B, hB, _⟩ := hnz a op hw
      exact ⟨B, hB⟩)
  refine ⟨f1, ?_⟩
  obtain ⟨vs, v1, v2⟩ := b6 (typed vals) env hin'
  refine ⟨vs, v1, fun o hoo => ?_⟩
  obtain ⟨ty, h, v, t1, t2, t3, os, t4, t5⟩ := v2 o hoo
  refine ⟨ty, v, t1, t2, ?_⟩
  have dec : ∀ m c u, g.weight m = some (.output (outKind ty) c) → FEval P.degree (typed vals) g m u → u.type = outKind ty →
      CtDecrypts P (bitKey W s) sk (st.cells (outKind ty, c)) u := by
    intro m c u hw hu hty
    obtain ⟨B, hB, hlim⟩ := hnz m _ hw
    refine f2 m _ c u B hw hu hB ?_
    rw [← limit_type, hty]
    exact hlim _ _ rfl
  have all : ∀ us : List Val, List.Forall₂ (fun n u => FEval P.degree (typed vals) ctx.circuit n u ∧ u.type = outKind ty) (handleNodes h).2 us →
      List.Forall₂ (fun c u => CtDecrypts P (bitKey W s) sk (st.cells (outKind ty, c)) u) o.2 us := by
    intro us hu
    have h1 := t5 us hu
    have hty : ∀ u ∈ us, u.type = outKind ty := by
      intro u huu
      obtain ⟨j, hj, rfl⟩ := List.mem_iff_getElem.1 huu
      have := (List.forall₂_iff_get.1 hu).2 j (by rw [hu.length_eq]; exact hj) hj
      rw [List.get_eq_getElem] at this
      exact this.2
    clear hu t5
    revert h1 hty us
    generalize o.2 = cs at t4
    induction t4 with
    | nil => intro us h1 _; cases h1; exact .nil
    | cons hx _ ih =>
      intro us h1 hty
      cases h1 with
      | cons hy hys => exact .cons (dec _ _ _ hx hy (hty _ (by simp))) (ih _ hys fun u hu => hty u (by simp [hu]))
  cases ty with
  | int sg t w =>
    cases h <;> cases v <;> simp only [Decrypts] at t3
    obtain ⟨rfl, rfl, rfl, rfl, bits, u1, u2, u3⟩ := t3
    refine ⟨rfl, rfl, bits, u2, ?_, u3⟩
    exact List.forall₂_map_right_iff.1 (all (bits.map (ctOf _)) (List.forall₂_map_right_iff.2 (u1.imp fun n b hx => ⟨hx, ctOf_type _ b⟩)))
  | bit t =>
    cases h <;> cases v <;> simp only [Decrypts] at t3
    obtain ⟨rfl, u1⟩ := t3
    have := all [_] (.cons ⟨u1, ctOf_type _ _⟩ .nil)
    generalize hq : o.2 = cs at this
    cases this with
    | cons hx hxs => cases hxs; exact ⟨_, rfl, hx⟩
  | packed sg w =>
    cases h <;> cases v <;> simp only [Decrypts] at t3
    obtain ⟨rfl, rfl, rfl, rfl, poly, u1, u2⟩ := t3
    have := all [_] (.cons ⟨u1, rfl⟩ .nil)
    generalize hq : o.2 = cs at this
    cases this with
    | cons hx hxs => cases hxs; exact ⟨rfl, rfl, _, _, rfl, hx, u2⟩

/-! ### a concrete case -/

/-- two bits of `x0`, encrypted as LWE ciphertexts and bootstrapped; two bits of `x1`, encrypted as GGSW ciphertexts; `x0 > x1`, `x0 + x1`, and the
sum packed into one ciphertext -/
def exRunProg : List Instr := [.input .unsigned .lwe0 0 [0, 1], .convert 0 .ggsw1, .input .unsigned .ggsw1 1 [2, 3], .cmp true false 1 2 .glwe,
  .add 1 2 .glwe, .pack 4]

/-- collected: the comparison, the bits of the sum, the packed sum -/
def exRunOuts : List (Nat × List Nat) := [(3, [10]), (4, [11, 12]), (5, [13])]

def exRunTys : List Ty := [.int .unsigned .lwe0 2, .int .unsigned .ggsw1 2, .int .unsigned .ggsw1 2, .bit .glwe1, .int .unsigned .glwe1 2, .packed .unsigned 2]

theorem exRun_check : check 16 exRunProg [] = some exRunTys := by decide

theorem exRun_outs : OutsOk exRunProg exRunTys exRunOuts where
  width := by
    intro o ho
    simp only [exRunOuts, List.mem_cons, List.not_mem_nil, or_false] at ho
    rcases ho with rfl | rfl | rfl
    · exact ⟨_, rfl, rfl⟩
    · exact ⟨_, rfl, rfl⟩
    · exact ⟨_, rfl, rfl⟩
  distinct := by decide
  fresh := by decide

/-- the noise analysis, computed -/
def fits (W : Nat) (P : EvalParams) (ν : NoiseLevels) (nz : CtType → Nat → Nat) (fuel : Nat) (g : FGraph) : Bool :=
  (List.range g.nodes.length).all fun a => match g.weight a with
    | none => true
    | some op => match nodeFuel (noiseOp W P ν nz) g fuel a with
      | none => false
      | some B => match op with
        | .output t _ => decide (B < decryptLimit W P (ctOf t false))
        | _ => true

theorem fits_ok {P : EvalParams} {ν : NoiseLevels} {nz : CtType → Nat → Nat} {fuel : Nat} {g : FGraph} (h : fits W P ν nz fuel g = true) : NoiseFits W P ν nz g := by
  intro a op hw
  have := List.all_eq_true.1 h a (List.mem_range.2 (lt_of_weight hw))
  rw [hw] at this
  simp only at this
  cases hB : nodeFuel (noiseOp W P ν nz) g fuel a with
  | none => rw [hB] at this; cases this
  | some B =>
    rw [hB] at this
    refine ⟨B, nodeFuel_ok hB, ?_⟩
    rintro t c rfl
    simpa using this

/-- the circuit has 57 nodes -/
def exRunG : Option FGraph := (exec shannonLib 16 exRunProg Ctx.new []).bind fun r => collectAll r.2 exRunOuts r.1.circuit

theorem exRun_fits : (match exRunG with
    | none => false
    | some g => fits 64 exCtParams exCtLevels (fun _ _ => 4) 40 g && g.nodes.length == 57) = true := by decide +kernel

/-- On fresh encryptions of `x0 = 3` and `x1 = 2` (with the noise 4), every finished run decrypts to: `3 > 2`, and `3 + 2 = 1` modulo 4 (both bit by bit
and packed). -/
example (err : FheOp → List (Ct 64 × FheEdge) → OpErr 64) (he : ∀ op ins, ErrOk exCtParams 4 exCtLevels.fft (err op ins)) :
    ∃ K g, computeKeyGen true exCtParams (bitKey 64 [true, true]) exCtSk exCtDraws = some K ∧ exRunG = some g ∧ (∃ ord, TopoOrder g ord) ∧
      ∀ ord, TopoOrder g ord → ∃ items, spawnAll [(g, ord)] 0 0 = some items ∧ ∀ (vals : CtType → Nat → Val) (cells : CtType × Nat → Ct 64),
        (∀ t c, vals t c = ctOf t (c != 2)) → (∀ p, CtEncrypts exCtParams (bitKey 64 [true, true]) exCtSk 4 (vals p.1 p.2) (cells p)) →
        ∀ threads tokens st, Reached (liftExec (execCt exCtParams K err)) threads tokens items cells st → Finished items st → st.fired 0 = [none] ∧
          CtDecrypts exCtParams (bitKey 64 [true, true]) exCtSk (st.cells (.glwe1, 10)) (ctOf .glwe1 true) ∧
          (∃ b0 b1, valLE [b0, b1] = 1 ∧ CtDecrypts exCtParams (bitKey 64 [true, true]) exCtSk (st.cells (.glwe1, 11)) (ctOf .glwe1 b0) ∧
            CtDecrypts exCtParams (bitKey 64 [true, true]) exCtSk (st.cells (.glwe1, 12)) (ctOf .glwe1 b1)) ∧
          ∃ poly, CtDecrypts exCtParams (bitKey 64 [true, true]) exCtSk (st.cells (.glwe1, 13)) (.glwe1 poly) ∧ valLE [poly 0, poly 1] = 1 := by
  obtain ⟨K, k1, k2⟩ := C100_run_partial exCtParams_ok exCtSecret_ok true exCtDraws_ok
  obtain ⟨ctx, hs, g, e1, e2, e3, e4⟩ := k2 err he shannonLib bddLibOk_shannon exRunProg exRunTys exRunOuts exRun_check exRun_outs
  have hg : exRunG = some g := by
    rw [exRunG, show exec shannonLib 16 exRunProg Ctx.new [] = _ from e1]
    exact e2
  have hfit := exRun_fits
  rw [hg] at hfit
  simp only [Bool.and_eq_true] at hfit
  refine ⟨K, g, k1, hg, e3, fun ord ht => ?_⟩
  obtain ⟨items, i1, i2⟩ := e4 ord ht
  refine ⟨items, i1, fun vals cells hv hc threads tokens st hr hf => ?_⟩
  obtain ⟨f1, vs, f2, f3⟩ := i2 (fun x => if x = 0 then 3 else 2) vals (fun _ _ => 4) cells (by
    intro i hi
    simp only [exRunProg, List.mem_cons, List.not_mem_nil, or_false] at hi
    rcases hi with rfl | rfl | rfl | rfl | rfl | rfl
    · exact ⟨[true, true], .cons (hv _ _) (.cons (hv _ _) .nil), by decide⟩
    · trivial
    · exact ⟨[false, true], .cons (hv _ _) (.cons (hv _ _) .nil), by decide⟩
    all_goals trivial) (fun i _ p _ => hc p) (fits_ok hfit.1) threads tokens st hr hf
  have hm : meaning (fun x => if x = 0 then 3 else 2) exRunProg [] = some
      [.int .unsigned 2 3, .int .unsigned 2 3, .int .unsigned 2 2, .bit true, .int .unsigned 2 1, .int .unsigned 2 1] := by decide
  rw [hm] at f2
  cases f2
  refine ⟨f1, ?_, ?_, ?_⟩
  · obtain ⟨ty, v, t1, t2, t3⟩ := f3 (3, [10]) (by simp [exRunOuts])
    cases t1; cases t2
    obtain ⟨c, c1, c2⟩ := t3
    cases c1
    exact c2
  · obtain ⟨ty, v, t1, t2, t3⟩ := f3 (4, [11, 12]) (by simp [exRunOuts])
    cases t1; cases t2
    obtain ⟨_, _, bits, b1, b2, b3⟩ := t3
    match bits, b1, b2, b3 with
    | [b0, b1], _, .cons h1 (.cons h2 .nil), b3 => exact ⟨b0, b1, by
        have : ((valLE [b0, b1] : Nat) : Int) = 1 := b3
        exact_mod_cast this, h1, h2⟩
  · obtain ⟨ty, v, t1, t2, t3⟩ := f3 (5, [13]) (by simp [exRunOuts])
    cases t1; cases t2
    obtain ⟨_, _, c, poly, c1, c2, c3⟩ := t3
    cases c1
    exact ⟨poly, c2, by
      have : ((valLE [poly 0, poly 1] : Nat) : Int) = 1 := c3
      exact_mod_cast this⟩

end Spf.Props
