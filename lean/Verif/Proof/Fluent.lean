import Verif.Spec.Fluent
import Verif.Props.FheGraph
/-! Lemmas about the fluent circuit builders. -/
namespace Spf.Fluent
open Spf.Spec Spf.Fhe Spf.Props Graph

/-- one node appended, with its in-edges `(source, kind)`, newest first -/
def ext1 (g : FGraph) (op : FheOp) (es : List (Nat × FheEdge)) : FGraph :=
  extF g [op] (es.map fun p => (p.1, g.nodes.length, p.2))

theorem addNode_ext1 (g : FGraph) (op : FheOp) : g.addNode op = (ext1 g op [], g.nodes.length) := rfl

theorem ext1_weight (g : FGraph) (op es) : (ext1 g op es).weight g.nodes.length = some op :=
  extF_weight_new g [op] _ (i := 0) rfl

theorem ext1_old {g : FGraph} {op es n} (h : (g.weight n).isSome) : (ext1 g op es).weight n = g.weight n := by
  obtain ⟨x, hx⟩ := Option.isSome_iff_exists.1 h
  exact extF_weight_lt _ _ _ (lt_of_weight hx)

theorem addEdge_ext1 {g : FGraph} {op es a k} (ha : (g.weight a).isSome) :
    (ext1 g op es).addEdge a g.nodes.length k = some (ext1 g op ((a, k) :: es)) := by
  rw [addEdge_ok (by rw [ext1_old ha]; exact ha) (by rw [ext1_weight]; rfl)]
  rfl

theorem ext1_ext (g : FGraph) (op es) : FExt g (ext1 g op es) := by
  apply extF_ext
  intro e he
  obtain ⟨p, _, rfl⟩ := List.mem_map.1 he
  exact Nat.le_refl _

theorem ext1_live {g : FGraph} (hl : Live g) {op es} (hs : ∀ p ∈ es, (g.weight p.1).isSome) : Live (ext1 g op es) := by
  apply extF_live hl
  intro e he
  obtain ⟨p, hp, rfl⟩ := List.mem_map.1 he
  have h1 := ext1_old (op := op) (es := es) (hs p hp)
  have h2 := ext1_weight g op es
  unfold ext1 at h1 h2
  simp only
  rw [h1, h2]
  exact ⟨hs p hp, rfl⟩

theorem ext1_eval {g : FGraph} (hl : Live g) {op : FheOp} {es : List (Nat × FheEdge)} {deg cells} (f : Nat → Val) {v}
    (hf : ∀ p ∈ es, FEval deg cells g p.1 (f p.1)) (hx : execOp deg cells op (es.map fun p => (f p.1, p.2)) = some v) :
    FEval deg cells (ext1 g op es) g.nodes.length v := by
  have hin : (ext1 g op es).inEdges g.nodes.length = es.map fun p => (p.1, g.nodes.length, p.2) := by
    have := extF_in_new hl (ops := [op]) (es := es.map fun p => (p.1, g.nodes.length, p.2)) (i := 0)
    rw [Nat.add_zero] at this
    unfold ext1
    rw [this, List.filter_eq_self]
    intro e he
    obtain ⟨p, _, rfl⟩ := List.mem_map.1 he
    simp
  refine .op f (ext1_weight g op es) ?_ ?_
  · rw [hin]
    intro e he
    obtain ⟨p, hp, rfl⟩ := List.mem_map.1 he
    exact (ext1_ext g op es).eval (hf p hp)
  · rw [hin, List.map_map]; exact hx

theorem ext1_good {deg : Nat} {io : Nat → FheOp → Prop} {g : FGraph} (hl : Live g) {op : FheOp} {es : List (Nat × FheEdge)} (hio : Internal op ∨ ∀ n, io n op)
    (hs : ∀ p ∈ es, ∃ o t, g.weight p.1 = some o ∧ opType o = some t)
    (hex : ∀ cells (f : Nat → Val), CellsTyped cells → (∀ p ∈ es, FEval deg cells g p.1 (f p.1)) → (execOp deg cells op (es.map fun p => (f p.1, p.2))).isSome)
    (hg : Good deg io g) : Good deg io (ext1 g op es) := by
  refine hg.ext (ext1_ext g op es) ?_ ?_ (extF_ops (by
    intro o ho
    rw [List.mem_singleton.1 ho]
    exact hio.elim (fun h n => hg.internal n _ h) id))
  · intro e he
    rcases List.mem_append.1 he with h | h
    · obtain ⟨p, hp, rfl⟩ := List.mem_map.1 h
      obtain ⟨o, t, h1, h2⟩ := hs p hp
      exact Or.inr ⟨o, t, (ext1_ext g op es _ _ h1).1, h2⟩
    · exact Or.inl h
  · intro cells hc n h0 hn
    obtain ⟨i, hi, rfl⟩ := extF_new_cases h0 hn
    have : i = 0 := by simpa using hi
    subst this
    have : ∀ m : Nat, ∃ v, (g.weight m).isSome → FEval deg cells g m v := by
      intro m
      by_cases hm : (g.weight m).isSome
      · obtain ⟨v, hv⟩ := hg.runs cells hc m hm
        exact ⟨v, fun _ => hv⟩
      · exact ⟨.lwe0 false, fun h => absurd h hm⟩
    choose f hf using this
    have hfs : ∀ p ∈ es, FEval deg cells g p.1 (f p.1) := fun p hp => hf _ (by
      obtain ⟨o, t, h1, _⟩ := hs p hp
      rw [h1]; rfl)
    obtain ⟨v, hv⟩ := Option.isSome_iff_exists.1 (hex cells f hc hfs)
    exact ⟨v, ext1_eval hl f hfs hv⟩

/-- one operand -/
theorem ext1_good1 {deg : Nat} {io : Nat → FheOp → Prop} {g : FGraph} (hl : Live g) {op : FheOp} {n : Nat} {k : FheEdge} {t : CtType} (hio : Internal op ∨ ∀ n, io n op)
    (hn : ∃ o, g.weight n = some o ∧ opType o = some t) (hex : ∀ cells v, v.type = t → (execOp deg cells op [(v, k)]).isSome)
    (hg : Good deg io g) : Good deg io (ext1 g op [(n, k)]) := by
  obtain ⟨o, h1, h2⟩ := hn
  refine ext1_good hl hio (by intro p hp; rw [List.mem_singleton] at hp; subst hp; exact ⟨o, t, h1, h2⟩) ?_ hg
  intro cells f hc hf
  exact hex cells _ (feval_type hc (hf (n, k) (by simp)) h1 h2)

theorem nodes_ext {g g' : FGraph} (h : FExt g g') {t nodes} (hn : AreNodes g t nodes) : AreNodes g' t nodes := by
  intro n hm
  obtain ⟨op, h1, h2⟩ := hn n hm
  exact ⟨op, (h n op h1).1, h2⟩

theorem holds_ext {g g' : FGraph} (h : FExt g g') {deg cells t nodes bits} (hn : Holds deg cells g t nodes bits) :
    Holds deg cells g' t nodes bits := List.Forall₂.imp (fun _ _ hx => h.eval hx) hn

theorem extends_of {g g' : FGraph} (h : FExt g g') (hl : Live g) : Extends g g' := by
  intro n op hop
  exact ⟨(h n op hop).1, (h n op hop).2, fun deg cells v => h.eval_iff hl (by rw [hop]; rfl)⟩

theorem AreNodes.live {g : FGraph} {t nodes} (h : AreNodes g t nodes) {n} (hn : n ∈ nodes) : (g.weight n).isSome := by
  obtain ⟨op, h1, _⟩ := h n hn
  rw [h1]; rfl

theorem accepts_of_type {op : FheOp} (h : opType op = some .ggsw1) : acceptsMux op = true := by
  cases op with
  | input t c => simp only [opType, Option.some.injEq] at h; subst h; rfl
  | _ => first | rfl | simp [opType] at h

theorem mapOp_type {mode : MuxMode} {m op} (h : mapOp mode m = some op) : opType op = some (modeType mode) := by
  cases mode <;> cases m <;> simp only [mapOp, Option.some.injEq, reduceCtorEq] at h <;> subst h <;> rfl

theorem wires_beyond (bits : List Bool) {i : Nat} (h : bits.length ≤ i) : wires bits i = false := by
  unfold wires
  rw [List.getD_eq_getElem?_getD, List.getElem?_eq_none h]; rfl

theorem bitIn_ctOf (mode : MuxMode) (b : Bool) : bitIn mode b = ctOf (modeType mode) b := by cases mode <;> rfl

/-- Inserting a generated circuit. -/
theorem insertGen_ok {lib : BddLib} (hlib : BddLibOk lib) {g : FGraph} (hl : Live g) {fs : List BddFn} (hfs : fs ≠ []) {nv : Nat}
    {nodes : List Nat} {mode : MuxMode} (hlen : nodes.length = nv) (hk : AreNodes g .ggsw1 nodes) :
    ∃ g' res, insertGen lib nv (some fs) nodes mode g = some (g', res) ∧ Live g' ∧ FExt g g' ∧ AreNodes g' (modeType mode) res ∧
      res.length = fs.length ∧ (∀ d io, Good d io g → Good d io g') ∧
      ∀ deg cells bits, Holds deg cells g .ggsw1 nodes bits → Holds deg cells g' (modeType mode) res (fs.map (· (wires bits))) := by
  obtain ⟨c, h1, h2, h3, h4⟩ := C11_from_bdds (nv := nv) (bdds := fs.map (lib.nodes nv))
    (by intro b hb; obtain ⟨f, _, rfl⟩ := List.mem_map.1 hb; exact (hlib nv f).1) (by simpa using hfs)
  have hacc : ∀ n ∈ nodes, ∃ op, g.weight n = some op ∧ acceptsMux op = true := by
    intro n hn
    obtain ⟨op, b1, b2⟩ := hk n hn
    exact ⟨op, b1, accepts_of_type b2⟩
  obtain ⟨g', res, a1, a2, a3, a4, a5, a6⟩ := insertMux_ok (mode := mode) hl h2 h3 h4 hlen hacc
  have hrl : res.length = fs.length := by rw [a4, List.length_map, List.length_map]
  refine ⟨g', res, ?_, a2, a3, ?_, hrl, fun d io hg => insertMux_good hl h2 h3 h4 hlen hacc hk a1 hg, ?_⟩
  · unfold insertGen circuitOf; simp only [h1, a1]
  · intro r hr
    obtain ⟨m, op, b1, b2⟩ := a5 r hr
    exact ⟨op, b2, mapOp_type b1⟩
  · intro deg cells bits hb
    have hbl : bits.length = nv := by rw [← hb.length_eq]; exact hlen
    unfold Holds
    rw [List.forall₂_iff_get]
    refine ⟨by rw [hrl, List.length_map], ?_⟩
    intro i hi1 hi2
    have hif : i < fs.length := by rw [← hrl]; exact hi1
    have hev := a6 deg cells (wires bits) (by
      intro j n hn
      have hj := (List.getElem?_eq_some_iff.1 hn).1
      have := (List.forall₂_iff_get.1 hb).2 j hj (by rw [hbl, ← hlen]; exact hj)
      rw [List.get_eq_getElem, List.get_eq_getElem] at this
      rw [List.getElem?_eq_getElem hj] at hn
      rw [Option.some.inj hn] at this
      have hjb : j < bits.length := by rw [hbl, ← hlen]; exact hj
      rw [show wires bits j = bits[j] by unfold wires; rw [List.getD_eq_getElem?_getD, List.getElem?_eq_getElem hjb]; rfl]
      exact this) i (bddFn (lib.nodes nv fs[i])) res[i] (by
        rw [List.getElem?_map, List.getElem?_map, List.getElem?_eq_getElem hif]; rfl) (List.getElem?_eq_getElem hi1)
    rw [(hlib nv fs[i]).2 (wires bits) (fun j hj => wires_beyond bits (by omega))] at hev
    have : mode.val (fs[i] (wires bits)) = ctOf (modeType mode) (fs[i] (wires bits)) := by cases mode <;> rfl
    rw [this] at hev
    simpa using hev

end Spf.Fluent
