import Verif.Proof.Prune
import Verif.Proof.MuxSem
import Mathlib.Tactic.Tauto
/-! `insert_mux_circuit`. -/
namespace Spf.Fhe
open Spf.Spec Graph Spf.Mux

/-- Evaluate a node from the values of its operands, given per edge. -/
theorem FEval.intro {deg cells} {g : FGraph} {n op v} {L : List (Nat × Nat × FheEdge)} (hw : g.weight n = some op)
    (hp : (g.inEdges n).Perm L) (val : Nat × Nat × FheEdge → Val) (hv : ∀ e ∈ L, FEval deg cells g e.1 (val e))
    (hx : execOp deg cells op (L.map fun e => (val e, e.2.2)) = some v) : FEval deg cells g n v := by
  classical
  have hf : ∀ e ∈ L, FEval deg cells g e.1 (if h : ∃ v, FEval deg cells g e.1 v then h.choose else .lwe0 false) := by
    intro e he
    rw [dif_pos ⟨_, hv e he⟩]
    exact (⟨_, hv e he⟩ : ∃ v, FEval deg cells g e.1 v).choose_spec
  refine .op (fun m => if h : ∃ v, FEval deg cells g m v then h.choose else .lwe0 false) hw ?_ ?_
  · intro e he; exact hf e (hp.mem_iff.1 he)
  · refine execOp_perm (hp.map _).symm ?_
    rw [← hx]
    congr 1
    apply List.map_congr_left
    intro e he
    rw [fdet (hf e he) (hv e he)]

/-- nodes that are copied -/
def innerB (mode : MuxMode) (mg : MGraph) (i : Nat) : Bool := ((mg.weight i).bind (mapOp mode)).isSome

theorem innerB_iff {mode mg i} : innerB mode mg i = true ↔ mg.weight i = some .mux ∨ mg.weight i = some .zero ∨ mg.weight i = some .one := by
  unfold innerB
  cases h : mg.weight i with
  | none => simp
  | some op => cases op <;> simp [mapOp]

theorem copyNodes_ok (mode : MuxMode) (mg : MGraph) (g0 : FGraph) : ∀ (is ks : List Nat),
    copyNodes mode mg is ⟨g0.nodes ++ ks.map (fun i => (mg.weight i).bind (mapOp mode)), g0.edges⟩
      ((ks.zipIdx g0.nodes.length).reverse) =
    (⟨g0.nodes ++ (ks ++ is.filter (innerB mode mg)).map (fun i => (mg.weight i).bind (mapOp mode)), g0.edges⟩,
      ((ks ++ is.filter (innerB mode mg)).zipIdx g0.nodes.length).reverse)
  | [], ks => by simp [copyNodes]
  | i :: is, ks => by
    unfold copyNodes
    cases h : (mg.weight i).bind (mapOp mode) with
    | none =>
      simp only
      rw [copyNodes_ok mode mg g0 is ks, List.filter_cons, if_neg (by simp [innerB, h])]
    | some op =>
      simp only [addNode]
      have := copyNodes_ok mode mg g0 is (ks ++ [i])
      rw [List.filter_cons, if_pos (by simp [innerB, h])]
      simp only [List.zipIdx_append, List.reverse_append, List.map_append, List.append_assoc, List.map_cons, List.map_nil, h,
        List.zipIdx_cons, List.zipIdx_nil, List.reverse_cons, List.reverse_nil, List.nil_append, List.cons_append, List.length_append,
        List.length_map, List.length_cons, List.length_nil] at this ⊢
      rw [this]

theorem lookup_shift (b : Nat) (ks : List Nat) (hn : ks.Nodup) (n : Nat) : ((ks.zipIdx b).reverse).lookup n =
    if n ∈ ks then some (b + ks.idxOf n) else none := by
  have h0 : ((ks.zipIdx b).reverse) = (ks.zipIdx.reverse).map (fun p => (p.1, b + p.2)) := by
    rw [List.zipIdx_eq_map_add, List.map_reverse]
  have h1 : ∀ l : List (Nat × Nat), (l.map fun p => (p.1, b + p.2)).lookup n = (l.lookup n).map (b + ·) := by
    intro l
    induction l with
    | nil => rfl
    | cons p l ih =>
      obtain ⟨a, c⟩ := p
      rw [List.map_cons, List.lookup_cons, List.lookup_cons, ih]
      cases n == a <;> rfl
  rw [h0, h1]
  by_cases h : n ∈ ks
  · rw [if_pos h, (lookup_zipIdx hn n _).2 (idxOf_get h)]; rfl
  · rw [if_neg h, (lookup_none hn n).2 h]; rfl

/-- total version of `mapEdge` -/
def mapE : MuxEdge → FheEdge | .high => .high | .low => .low | .select => .sel | .output => .unary

theorem mapEdge_eq {k : MuxEdge} (h : k ≠ .output) : mapEdge k = some (mapE k) := by cases k <;> first | rfl | exact absurd rfl h

section
variable {ren : List (Nat × Nat)} {ks : List Nat} {b : Nat}

theorem connectInput_ok (hren : ∀ n, ren.lookup n = if n ∈ ks then some (b + ks.idxOf n) else none) (src : Nat) :
    ∀ (es : List (Nat × Nat × MuxEdge)) (ns : List (Option FheOp)) (es0), (∀ e ∈ es, e.2.1 ∈ ks ∧ e.2.2 ≠ .output) →
    ((⟨ns, []⟩ : FGraph).weight src).isSome → (∀ n ∈ ks, ((⟨ns, []⟩ : FGraph).weight (b + ks.idxOf n)).isSome) →
    connectInput ren src es ⟨ns, es0⟩ = some ⟨ns, (es.map fun e => (src, b + ks.idxOf e.2.1, mapE e.2.2)).reverse ++ es0⟩
  | [], ns, es0, _, _, _ => by simp [connectInput]
  | e :: es, ns, es0, h, hs, hk => by
    obtain ⟨h1, h2⟩ := h e (by simp)
    simp only [connectInput, hren, if_pos h1, mapEdge_eq h2]
    rw [addEdge_ok (g := ⟨ns, es0⟩) hs (hk _ h1)]
    simp only
    rw [connectInput_ok hren src es ns _ (fun a ha => h a (by simp [ha])) hs hk]
    simp

theorem connectInner_ok (hren : ∀ n, ren.lookup n = if n ∈ ks then some (b + ks.idxOf n) else none) :
    ∀ (es : List (Nat × Nat × MuxEdge)) (ns : List (Option FheOp)) (es0), (∀ e ∈ es, e.1 ∈ ks ∧ (e.2.1 ∈ ks → e.2.2 ≠ .output)) →
    (∀ n ∈ ks, ((⟨ns, []⟩ : FGraph).weight (b + ks.idxOf n)).isSome) →
    connectInner ren es ⟨ns, es0⟩ = some ⟨ns, ((es.filter fun e => e.2.1 ∈ ks).map fun e => (b + ks.idxOf e.1, b + ks.idxOf e.2.1, mapE e.2.2)).reverse ++ es0⟩
  | [], ns, es0, _, _ => by simp [connectInner]
  | e :: es, ns, es0, h, hk => by
    obtain ⟨h1, h2⟩ := h e (by simp)
    simp only [connectInner, hren, if_pos h1]
    by_cases ht : e.2.1 ∈ ks
    · simp only [if_pos ht, mapEdge_eq (h2 ht)]
      rw [addEdge_ok (g := ⟨ns, es0⟩) (hk _ h1) (hk _ ht)]
      simp only
      rw [connectInner_ok hren es ns _ (fun a ha => h a (by simp [ha])) hk]
      simp [ht]
    · simp only [if_neg ht]
      rw [connectInner_ok hren es ns _ (fun a ha => h a (by simp [ha])) hk]
      simp [ht]

end

theorem connectInputs_ok {mg : MGraph} {ren : List (Nat × Nat)} {ks : List Nat} {b : Nat}
    (hren : ∀ n, ren.lookup n = if n ∈ ks then some (b + ks.idxOf n) else none) :
    ∀ (ps : List (Nat × Nat)) (ns : List (Option FheOp)) (es0),
    (∀ p ∈ ps, (∃ i, mg.weight p.2 = some (.variable i)) ∧ (∃ op, (⟨ns, []⟩ : FGraph).weight p.1 = some op ∧ acceptsMux op = true) ∧
      ∀ e ∈ mg.outEdges p.2, e.2.1 ∈ ks ∧ e.2.2 ≠ .output) →
    (∀ n ∈ ks, ((⟨ns, []⟩ : FGraph).weight (b + ks.idxOf n)).isSome) →
    connectInputs mg ren ps ⟨ns, es0⟩ = some ⟨ns, (ps.flatMap fun p => (mg.outEdges p.2).map fun e => (p.1, b + ks.idxOf e.2.1, mapE e.2.2)).reverse ++ es0⟩
  | [], ns, es0, _, _ => by simp [connectInputs]
  | (f, m) :: ps, ns, es0, h, hk => by
    obtain ⟨⟨i, h1⟩, ⟨op, h2, h3⟩, h4⟩ := h (f, m) (by simp)
    have h2' : (⟨ns, es0⟩ : FGraph).weight f = some op := h2
    simp only [connectInputs, h1, h2', h3, if_true]
    rw [connectInput_ok hren f _ ns es0 h4 (by rw [h2]; rfl) hk]
    simp only
    rw [connectInputs_ok hren ps ns _ (fun a ha => h a (by simp [ha])) hk]
    simp

theorem connectRest_ok {mg : MGraph} {ren : List (Nat × Nat)} {mode : MuxMode} {ks : List Nat} {b : Nat}
    (hren : ∀ n, ren.lookup n = if n ∈ ks then some (b + ks.idxOf n) else none)
    (hks : ∀ n, n ∈ ks ↔ innerB mode mg n = true)
    (hkind : ∀ e ∈ mg.edges, e.2.1 ∈ ks → e.2.2 ≠ .output) :
    ∀ (is : List Nat) (ns : List (Option FheOp)) (es0), (∀ i ∈ is, (mg.weight i).isSome) →
    (∀ n ∈ ks, ((⟨ns, []⟩ : FGraph).weight (b + ks.idxOf n)).isSome) →
    connectRest mg ren is ⟨ns, es0⟩ = some ⟨ns, ((is.filter (innerB mode mg)).flatMap fun n =>
      ((mg.outEdges n).filter fun e => e.2.1 ∈ ks).map fun e => (b + ks.idxOf e.1, b + ks.idxOf e.2.1, mapE e.2.2)).reverse ++ es0⟩
  | [], ns, es0, _, _ => by simp [connectRest]
  | i :: is, ns, es0, h, hk => by
    have ih := fun es0 => connectRest_ok hren hks hkind is ns es0 (fun a ha => h a (by simp [ha])) hk
    have hin : innerB mode mg i = true → connectInner ren (mg.outEdges i) ⟨ns, es0⟩ = _ := fun hi =>
      connectInner_ok hren (mg.outEdges i) ns es0 (by
        intro e he
        simp only [outEdges, List.mem_filter, beq_iff_eq] at he
        exact ⟨by rw [he.2]; exact (hks i).2 hi, hkind e he.1⟩) hk
    obtain ⟨op, hop⟩ := Option.isSome_iff_exists.1 (h i (by simp))
    have hne : ∀ x, innerB mode mg i = x → x = ((some op).bind (mapOp mode)).isSome := by
      intro x hx; rw [← hx, innerB, hop]
    cases op with
    | output j =>
      have := hne _ rfl
      simp only [connectRest, hop]
      rw [ih, List.filter_cons, if_neg (by rw [this]; simp [mapOp])]
    | «variable» j =>
      have := hne _ rfl
      simp only [connectRest, hop]
      rw [ih, List.filter_cons, if_neg (by rw [this]; simp [mapOp])]
    | mux =>
      have hi : innerB mode mg i = true := by rw [hne _ rfl]; rfl
      simp only [connectRest, hop, hin hi]
      rw [ih, List.filter_cons, if_pos hi]
      simp
    | zero =>
      have hi : innerB mode mg i = true := by rw [hne _ rfl]; rfl
      simp only [connectRest, hop, hin hi]
      rw [ih, List.filter_cons, if_pos hi]
      simp
    | one =>
      have hi : innerB mode mg i = true := by rw [hne _ rfl]; rfl
      simp only [connectRest, hop, hin hi]
      rw [ih, List.filter_cons, if_pos hi]
      simp

/-- Grouping edges by source. -/
theorem flat_sources {E : Type} : ∀ (L : List Nat) (es : List (Nat × Nat × E)), L.Nodup → (∀ e ∈ es, e.1 ∈ L) →
    (L.flatMap fun s => es.filter fun e => e.1 == s).Perm es
  | [], es, _, h => by
    have : es = [] := by
      cases es with
      | nil => rfl
      | cons e es => exact absurd (h e (by simp)) (by simp)
    simp [this]
  | s :: L, es, hn, h => by
    rw [List.nodup_cons] at hn
    rw [List.flatMap_cons]
    have hsplit := List.filter_append_perm (fun e : Nat × Nat × E => e.1 == s) es
    refine List.Perm.trans ?_ hsplit
    refine List.Perm.append_left _ ?_
    have ih := flat_sources L (es.filter fun e => !(e.1 == s)) hn.2 (by
      intro e he
      simp only [List.mem_filter, Bool.not_eq_true', beq_eq_false_iff_ne] at he
      rcases List.mem_cons.1 (h e he.1) with h' | h'
      · exact absurd h' he.2
      · exact h')
    refine List.Perm.trans (List.Perm.of_eq ?_) ih
    apply List.flatMap_congr
    intro m hm
    rw [List.filter_filter]
    apply List.filter_congr
    intro e _
    by_cases he : e.1 = m
    · have : e.1 ≠ s := by rintro rfl; rw [he] at hn; exact hn.1 hm
      simp [he, he ▸ this]
    · simp [he]

theorem lookup_zip : ∀ (a b : List Nat) (i x y : Nat), a.Nodup → a[i]? = some x → b[i]? = some y → (a.zip b).lookup x = some y
  | [], _, i, x, y, _, h, _ => by simp at h
  | _ :: _, [], i, x, y, _, _, h => by simp at h
  | u :: a, v :: b, 0, x, y, _, h, h' => by
    simp only [List.getElem?_cons_zero, Option.some.injEq] at h h'
    subst h h'
    simp [List.lookup_cons]
  | u :: a, v :: b, i + 1, x, y, hn, h, h' => by
    rw [List.nodup_cons] at hn
    simp only [List.getElem?_cons_succ] at h h'
    have : x ≠ u := by rintro rfl; exact hn.1 (List.mem_of_getElem? h)
    have hb : (x == u) = false := by simp [this]
    rw [List.zip_cons_cons, List.lookup_cons, hb]
    exact lookup_zip a b i x y hn.2 h h'

/-- value produced in a mode -/
def MuxMode.val : MuxMode → Bool → Val
  | .glwe, b => .glwe1 (constPoly b)
  | .glev, b => .glev1 b

theorem findOutputs_ok {mg : MGraph} {ren : List (Nat × Nat)} (src : Nat → Nat)
    (huniq : ∀ n n' i, mg.weight n = some (.output i) → mg.weight n' = some (.output i) → n = n') (m : Nat)
    (hout : ∀ n i, mg.weight n = some (.output i) → i < m ∧ ∃ s, mg.inEdges n = [(s, n, MuxEdge.output)] ∧ ren.lookup s = some (src n)) :
    ∀ (ns outs : List Nat), ns.Nodup → outs.length = m → ∃ res, findOutputs mg ren ns outs = some res ∧ res.length = m ∧
      (∀ n i, n ∈ ns → mg.weight n = some (.output i) → res[i]? = some (src n)) ∧
      ∀ i, (∀ n ∈ ns, mg.weight n ≠ some (.output i)) → res[i]? = outs[i]?
  | [], outs, _, hl => ⟨outs, rfl, hl, by simp, fun _ _ => rfl⟩
  | n :: ns, outs, hn, hl => by
    rw [List.nodup_cons] at hn
    have skip : (∀ i, mg.weight n ≠ some (.output i)) → findOutputs mg ren (n :: ns) outs = findOutputs mg ren ns outs := by
      intro h
      simp only [findOutputs]
    by_cases ho : ∃ o, mg.weight n = some (.output o)
    · obtain ⟨o, ho⟩ := ho
      obtain ⟨h1, s, h2, h3⟩ := hout n o ho
      obtain ⟨res, r1, r2, r3, r4⟩ := findOutputs_ok src huniq m hout ns (outs.set o (src n)) hn.2 (by simp [hl])
      refine ⟨res, ?_, r2, ?_, ?_⟩
      · simp only [findOutputs, ho, h2, List.head?_cons, h3, hl, if_pos h1]; exact r1
      · intro a i ha hw
        rcases List.mem_cons.1 ha with rfl | ha
        · rw [ho] at hw; cases hw
          rw [r4 o]
          · rw [List.getElem?_set, if_pos rfl, if_pos (by omega)]
          · intro b hb hwb
            have := huniq _ _ _ ho hwb
            subst this; exact hn.1 hb
        · exact r3 a i ha hw
      · intro i hi
        rw [r4 i (fun b hb => hi b (by simp [hb])), List.getElem?_set, if_neg]
        rintro rfl
        exact hi n (by simp) ho
    · have ho' : ∀ i, mg.weight n ≠ some (.output i) := fun i h => ho ⟨i, h⟩
      obtain ⟨res, r1, r2, r3, r4⟩ := findOutputs_ok src huniq m hout ns outs hn.2 hl
      refine ⟨res, by rw [skip ho', r1], r2, ?_, ?_⟩
      · intro a i ha hw
        rcases List.mem_cons.1 ha with rfl | ha
        · exact absurd hw (ho' i)
        · exact r3 a i ha hw
      · intro i hi
        exact r4 i (fun b hb => hi b (by simp [hb]))

theorem mem_indices {N E : Type} {g : Graph N E} {n} : n ∈ g.indices ↔ (g.weight n).isSome := by
  unfold indices
  rw [List.mem_filter, List.mem_range]
  constructor
  · exact fun h => h.2
  · intro h
    obtain ⟨x, hx⟩ := Option.isSome_iff_exists.1 h
    exact ⟨lt_of_weight hx, h⟩

theorem indices_nodup {N E : Type} (g : Graph N E) : g.indices.Nodup := List.Nodup.filter _ List.nodup_range

/-- number of output nodes -/
theorem outputs_count {c : MuxCircuit} {nIn outs} (hc : Computes c nIn outs) :
    (c.graph.indices.filter fun n => isOutput (c.graph.weight n)).length = outs.length := by
  let idx : Nat → Nat := fun n => match c.graph.weight n with | some (.output i) => i | _ => 0
  generalize hL : (c.graph.indices.filter fun n => isOutput (c.graph.weight n)) = L
  have hmem : ∀ n, n ∈ L ↔ ∃ i, c.graph.weight n = some (.output i) := by
    intro n
    rw [← hL, List.mem_filter, mem_indices]
    constructor
    · rintro ⟨_, h⟩
      cases hw : c.graph.weight n with
      | none => rw [hw] at h; cases h
      | some op =>
        rw [hw] at h
        cases op <;> first | exact ⟨_, rfl⟩ | cases h
    · rintro ⟨i, h⟩; rw [h]; exact ⟨rfl, rfl⟩
  have hnd : (L.map idx).Nodup := by
    refine List.Nodup.map_on ?_ (hL ▸ (indices_nodup _).filter _)
    intro a ha b hb h
    obtain ⟨i, hi⟩ := (hmem a).1 ha
    obtain ⟨j, hj⟩ := (hmem b).1 hb
    simp only [idx, hi, hj] at h
    subst h
    exact hc.outUnique _ _ _ hi hj
  have hp : (L.map idx).Perm (List.range outs.length) := by
    rw [List.perm_ext_iff_of_nodup hnd List.nodup_range]
    intro i
    rw [List.mem_range, ← hc.outIdx i, List.mem_map]
    constructor
    · rintro ⟨n, hn, rfl⟩
      obtain ⟨j, hj⟩ := (hmem n).1 hn
      exact ⟨n, by simp only [idx, hj]⟩
    · rintro ⟨n, hn⟩
      exact ⟨n, (hmem n).2 ⟨i, hn⟩, by simp only [idx, hn]⟩
  have := hp.length_eq
  simpa using this

/-- How an inserted multiplexer circuit sits in the circuit: `ψ` sends every inner node to its copy and the variable `j` to the
`j`-th given node; `res` are the copies of the sources of the outputs. -/
structure Copied (g : FGraph) (c : MuxCircuit) (nodes : List Nat) (mode : MuxMode) (g' : FGraph) (res : List Nat) (ψ : Nat → Nat) : Prop where
  op : ∀ n, innerB mode c.graph n = true → g'.weight (ψ n) = (c.graph.weight n).bind (mapOp mode)
  ins : ∀ n, innerB mode c.graph n = true → (g'.inEdges (ψ n)).Perm ((c.graph.inEdges n).map fun e => (ψ e.1, ψ e.2.1, mapE e.2.2))
  var : ∀ n j m, c.graph.weight n = some (.variable j) → nodes[j]? = some m → ψ n = m
  new : ∀ m, g.weight m = none → (g'.weight m).isSome → ∃ n, innerB mode c.graph n = true ∧ m = ψ n
  out : ∀ n i, c.graph.weight n = some (.output i) → ∃ s, c.graph.inEdges n = [(s, n, MuxEdge.output)] ∧ innerB mode c.graph s = true ∧ res[i]? = some (ψ s)

/-- Main theorem of the file. -/
theorem insertMux_struct {g : FGraph} {c : MuxCircuit} {nIn : Nat} {outs} {nodes : List Nat} {mode : MuxMode} (hl : Live g) (hw : WF c.graph)
    (hc : Computes c nIn outs) (ht : SelectorsOnly c.graph) (hlen : nodes.length = nIn)
    (hacc : ∀ n ∈ nodes, ∃ op, g.weight n = some op ∧ acceptsMux op = true) :
    ∃ g' res, insertMuxCircuit g c nodes mode = some (g', res) ∧ Live g' ∧ FExt g g' ∧ res.length = outs.length ∧
      (∀ r ∈ res, ∃ m op, mapOp mode m = some op ∧ g'.weight r = some op) ∧
      (∀ e ∈ g'.edges, e ∈ g.edges ∨ e.1 ∈ nodes ∨ ∃ m op, mapOp mode m = some op ∧ g'.weight e.1 = some op) ∧
      (∃ ψ, Copied g c nodes mode g' res ψ) ∧
      ∀ deg cells env, (∀ (i n : Nat), nodes[i]? = some n → FEval deg cells g n (.ggsw1 (env i))) →
        (∀ (i : Nat) f r, outs[i]? = some f → res[i]? = some r → FEval deg cells g' r (mode.val (f env))) ∧
        ∀ m, g.weight m = none → (g'.weight m).isSome → (∃ v, FEval deg cells g' m v) ∧ ∃ mo op, mapOp mode mo = some op ∧ g'.weight m = some op := by
  have hin : ∀ (i m : Nat), c.inputs[i]? = some m → c.graph.weight m = some (.variable i) := by
    intro i m h
    refine (hc.inputs m i).2 ⟨?_, h⟩
    rw [← hc.nInputs]; exact (List.getElem?_eq_some_iff.1 h).1
  have hvar : ∀ n i, c.graph.weight n = some (.variable i) → c.inputs[i]? = some n := fun n i h => ((hc.inputs n i).1 h).2
  have hind : c.inputs.Nodup := by
    rw [List.nodup_iff_injective_getElem]
    intro a b h
    simp only at h
    have h1 := hin a _ (List.getElem?_eq_getElem a.2)
    have h2 := hin b _ (List.getElem?_eq_getElem b.2)
    rw [h, h2] at h1
    injection h1 with h1
    injection h1 with h1
    exact Fin.ext h1.symm
  have hci := hc.nInputs
  generalize hks : c.graph.indices.filter (innerB mode c.graph) = ks
  have hksn : ks.Nodup := hks ▸ (indices_nodup _).filter _
  have hksm : ∀ n, n ∈ ks ↔ innerB mode c.graph n = true := by
    intro n
    rw [← hks, List.mem_filter, mem_indices]
    refine ⟨fun h => h.2, fun h => ⟨?_, h⟩⟩
    rcases innerB_iff.1 h with h | h | h <;> rw [h] <;> rfl
  generalize hb : g.nodes.length = b
  generalize hns : g.nodes ++ ks.map (fun i => (c.graph.weight i).bind (mapOp mode)) = ns
  have hren : ∀ n, ((ks.zipIdx b).reverse).lookup n = if n ∈ ks then some (b + ks.idxOf n) else none := lookup_shift b ks hksn
  have hcopy : copyNodes mode c.graph c.graph.indices g [] = (⟨ns, g.edges⟩, (ks.zipIdx b).reverse) := by
    have := copyNodes_ok mode c.graph g c.graph.indices []
    simp only [List.map_nil, List.append_nil, List.zipIdx_nil, List.reverse_nil, List.nil_append, hks, hb, hns] at this
    exact this
  have hkw : ∀ n ∈ ks, ∀ es, (⟨ns, es⟩ : FGraph).weight (b + ks.idxOf n) = (c.graph.weight n).bind (mapOp mode) := by
    intro n hn es
    unfold weight
    rw [← hns, List.getD_eq_getElem?_getD, List.getElem?_append_right (by omega), ← hb, Nat.add_sub_cancel_left, List.getElem?_map, idxOf_get hn]
    rfl
  have hks1 : ∀ n ∈ ks, ((⟨ns, []⟩ : FGraph).weight (b + ks.idxOf n)).isSome := by
    intro n hn
    rw [hkw n hn]; exact (hksm n).1 hn
  have hold : ∀ n x es, g.weight n = some x → (⟨ns, es⟩ : FGraph).weight n = some x := by
    intro n x es h
    have := lt_of_weight h
    unfold weight at h ⊢
    rw [← hns, List.getD_eq_getElem?_getD, List.getElem?_append_left this, ← List.getD_eq_getElem?_getD]; exact h
  have hkind : ∀ e ∈ c.graph.edges, e.2.1 ∈ ks → e.2.2 ≠ .output := by
    intro e he hm hk
    rcases innerB_iff.1 ((hksm _).1 hm) with h | h | h
    · have := hw.kind e he _ h; rw [hk] at this; exact this
    · have := hw.kind e he _ h; rw [hk] at this; exact this
    · have := hw.kind e he _ h; rw [hk] at this; exact this
  have hnotks : ∀ n i, c.graph.weight n = some (.variable i) → n ∉ ks := by
    intro n i h hm
    rcases innerB_iff.1 ((hksm _).1 hm) with h' | h' | h' <;> rw [h] at h' <;> cases h'
  -- targets of select edges are muxes
  have hsel : ∀ e ∈ c.graph.edges, e.2.2 = .select → e.2.1 ∈ ks := by
    intro e he hk
    obtain ⟨op, hop⟩ := Option.isSome_iff_exists.1 (hw.live e he).2
    have := hw.kind e he op hop
    rw [hk] at this
    rw [hksm, innerB_iff]
    cases op <;> simp only [KindOK] at this
    exact Or.inl hop
  have hcin := connectInputs_ok (mg := c.graph) (b := b) (ks := ks) hren (nodes.zip c.inputs) ns g.edges (by
    intro p hp
    obtain ⟨i, hi, hpi⟩ := List.getElem_of_mem hp
    simp only [List.length_zip] at hi
    rw [List.getElem_zip] at hpi
    have h1 : c.inputs[i]? = some p.2 := by rw [List.getElem?_eq_getElem (by omega), ← hpi]
    have h2 : p.1 ∈ nodes := by rw [← hpi]; exact List.getElem_mem _
    have h3 := hin i _ h1
    obtain ⟨op, h4, h5⟩ := hacc _ h2
    refine ⟨⟨i, h3⟩, ⟨op, hold _ _ _ h4, h5⟩, ?_⟩
    intro e he
    simp only [outEdges, List.mem_filter, beq_iff_eq] at he
    have hs := (ht e he.1).2 ⟨i, by rw [he.2]; exact h3⟩
    exact ⟨hsel e he.1 hs, by rw [hs]; decide⟩) hks1
  have hcr := fun es0 => connectRest_ok (mg := c.graph) (mode := mode) (b := b) hren hksm hkind c.graph.indices ns es0
    (fun i hi => mem_indices.1 hi) hks1
  rw [hks] at hcr
  -- outputs
  have hcount := outputs_count hc
  have houtw : ∀ n i, c.graph.weight n = some (.output i) → ∃ s, c.graph.inEdges n = [(s, n, MuxEdge.output)] ∧ s ∈ ks := by
    intro n i h
    obtain ⟨s, hs⟩ := hw.out1 n i h
    refine ⟨s, hs, ?_⟩
    have he : (s, n, MuxEdge.output) ∈ c.graph.edges := mem_inEdges.1 (by rw [hs]; simp)
    obtain ⟨op, hop⟩ := Option.isSome_iff_exists.1 (hw.live _ he).1
    rw [hksm, innerB_iff]
    cases op with
    | output j => exact absurd hop (hw.sink _ he j)
    | «variable» j => have := (ht _ he).2 ⟨j, hop⟩; cases this
    | mux => exact Or.inl hop
    | zero => exact Or.inr (Or.inl hop)
    | one => exact Or.inr (Or.inr hop)
  obtain ⟨res, r1, r2, r3, -⟩ := findOutputs_ok (mg := c.graph) (ren := (ks.zipIdx b).reverse)
    (fun n => b + ks.idxOf ((c.graph.inEdges n).headD (0, 0, .low)).1) hc.outUnique outs.length (by
      intro n i h
      obtain ⟨s, hs, hm⟩ := houtw n i h
      refine ⟨(hc.outIdx i).1 ⟨n, h⟩, s, hs, ?_⟩
      rw [hren, if_pos hm, hs]; rfl) c.graph.indices (List.replicate outs.length 0) (indices_nodup _) (by simp)
  -- the final graph
  let R : Nat × Nat × MuxEdge → Nat × Nat × FheEdge := fun e =>
    (if e.1 ∈ ks then b + ks.idxOf e.1 else ((c.inputs.zip nodes).lookup e.1).getD 0, b + ks.idxOf e.2.1, mapE e.2.2)
  generalize hA : ((nodes.zip c.inputs).flatMap fun p => (c.graph.outEdges p.2).map fun e => (p.1, b + ks.idxOf e.2.1, mapE e.2.2)) = A at hcin
  generalize hB : (ks.flatMap fun n => ((c.graph.outEdges n).filter fun e => e.2.1 ∈ ks).map fun e => (b + ks.idxOf e.1, b + ks.idxOf e.2.1, mapE e.2.2)) = B at hcr
  have hA' : A = c.inputs.flatMap fun m => ((c.graph.outEdges m).filter fun e => e.2.1 ∈ ks).map R := by
    rw [← hA]
    have h2 : (nodes.zip c.inputs).map Prod.snd = c.inputs := List.map_snd_zip (by omega)
    conv_rhs => rw [← h2, List.flatMap_map]
    apply List.flatMap_congr
    intro p hp
    obtain ⟨i, hi, hpi⟩ := List.getElem_of_mem hp
    simp only [List.length_zip] at hi
    rw [List.getElem_zip] at hpi
    have h1 : c.inputs[i]? = some p.2 := by rw [List.getElem?_eq_getElem (by omega), ← hpi]
    have h3 : nodes[i]? = some p.1 := by rw [List.getElem?_eq_getElem (by omega), ← hpi]
    have hf : (c.graph.outEdges p.2).filter (fun e => e.2.1 ∈ ks) = c.graph.outEdges p.2 := by
      rw [List.filter_eq_self]
      intro e he
      simp only [outEdges, List.mem_filter, beq_iff_eq] at he
      have hs := (ht e he.1).2 ⟨i, by rw [he.2]; exact hin i _ h1⟩
      simpa using hsel e he.1 hs
    rw [hf]
    apply List.map_congr_left
    intro e he
    simp only [outEdges, List.mem_filter, beq_iff_eq] at he
    simp only [R, he.2]
    rw [if_neg (hnotks _ i (hin i _ h1)), lookup_zip _ _ i _ _ hind h1 h3]
    rfl
  have hB' : B = ks.flatMap fun m => ((c.graph.outEdges m).filter fun e => e.2.1 ∈ ks).map R := by
    rw [← hB]
    apply List.flatMap_congr
    intro m hm
    apply List.map_congr_left
    intro e he
    simp only [outEdges, List.mem_filter, beq_iff_eq] at he
    simp only [R, he.1.2, if_pos hm]
  have hAB : (A ++ B).Perm ((c.graph.edges.filter fun e => e.2.1 ∈ ks).map R) := by
    have hfl := flat_sources (c.inputs ++ ks) c.graph.edges (by
      rw [List.nodup_append]
      refine ⟨hind, hksn, ?_⟩
      intro a ha b' hb' hab
      subst hab
      obtain ⟨i, hi⟩ := List.getElem?_of_mem ha
      exact hnotks a i (hin i a hi) hb') (by
      intro e he
      obtain ⟨op, hop⟩ := Option.isSome_iff_exists.1 (hw.live _ he).1
      rw [List.mem_append, hksm, innerB_iff]
      cases op with
      | output j => exact absurd hop (hw.sink _ he j)
      | «variable» j => exact Or.inl (List.mem_of_getElem? (hvar _ _ hop))
      | mux => exact Or.inr (Or.inl hop)
      | zero => exact Or.inr (Or.inr (Or.inl hop))
      | one => exact Or.inr (Or.inr (Or.inr hop)))
    have h1 := (hfl.filter (fun e => decide (e.2.1 ∈ ks))).map R
    refine List.Perm.trans (List.Perm.of_eq ?_) h1
    rw [hA', hB', ← List.flatMap_append, List.filter_flatMap, List.map_flatMap]
    rfl
  refine ⟨⟨ns, B.reverse ++ (A.reverse ++ g.edges)⟩, res, ?_, ?_, ?_, r2, ?_, ?_, ?_⟩
  · unfold insertMuxCircuit
    rw [if_neg (by omega)]
    simp only [hcopy, hcin, hcount, r1, hcr]
  · -- live
    have hRl : ∀ e ∈ c.graph.edges, e.2.1 ∈ ks → ∀ es, ((⟨ns, es⟩ : FGraph).weight (R e).1).isSome ∧ ((⟨ns, es⟩ : FGraph).weight (R e).2.1).isSome := by
      intro e he hm es
      refine ⟨?_, hks1 _ hm⟩
      by_cases h : e.1 ∈ ks
      · simp only [R, if_pos h]; exact hks1 _ h
      · obtain ⟨op, hop⟩ := Option.isSome_iff_exists.1 (hw.live _ he).1
        rw [hksm, innerB_iff] at h
        cases op with
        | output j => exact absurd hop (hw.sink _ he j)
        | «variable» j =>
          have hj := hvar _ _ hop
          have hjl := (List.getElem?_eq_some_iff.1 hj).1
          have hnj : nodes[j]? = some (nodes[j]'(by omega)) := List.getElem?_eq_getElem (by omega)
          simp only [R]
          rw [if_neg (hnotks _ _ hop), lookup_zip _ _ j _ _ hind hj hnj]
          obtain ⟨op, h4, h5⟩ := hacc _ (List.mem_of_getElem? hnj)
          simp only [Option.getD_some]
          rw [hold _ _ _ h4]; rfl
        | mux => exact absurd (Or.inl hop) h
        | zero => exact absurd (Or.inr (Or.inl hop)) h
        | one => exact absurd (Or.inr (Or.inr hop)) h
    intro e he
    simp only [List.mem_append, List.mem_reverse] at he
    by_cases hg : e ∈ g.edges
    · obtain ⟨⟨x, hx⟩, ⟨y, hy⟩⟩ := (hl e hg).imp Option.isSome_iff_exists.1 Option.isSome_iff_exists.1
      rw [hold _ _ _ hx, hold _ _ _ hy]; exact ⟨rfl, rfl⟩
    · have : e ∈ A ++ B := by
        rw [List.mem_append]; tauto
      obtain ⟨e', he', rfl⟩ := List.mem_map.1 (hAB.mem_iff.1 this)
      simp only [List.mem_filter, decide_eq_true_eq] at he'
      exact hRl e' he'.1 he'.2 _
  · -- extension
    intro n x hx
    refine ⟨hold _ _ _ hx, ?_⟩
    have hlt := lt_of_weight hx
    show List.filter _ _ = _
    have hno : ∀ l : List (Nat × Nat × FheEdge), (∀ e ∈ l, e ∈ A ++ B) → l.filter (fun e => e.2.1 == n) = [] := by
      intro l hl
      rw [List.filter_eq_nil_iff]
      intro e he
      obtain ⟨e', he', rfl⟩ := List.mem_map.1 (hAB.mem_iff.1 (hl e he))
      simp only [R, beq_iff_eq]
      omega
    simp only [List.filter_append]
    rw [hno B.reverse (by intro e he; rw [List.mem_append]; exact Or.inr (List.mem_reverse.1 he)),
      hno A.reverse (by intro e he; rw [List.mem_append]; exact Or.inl (List.mem_reverse.1 he))]
    rfl
  · -- kinds of the results
    intro r hr
    obtain ⟨i, hi⟩ := List.getElem?_of_mem hr
    have hil : i < outs.length := by rw [← r2]; exact (List.getElem?_eq_some_iff.1 hi).1
    obtain ⟨n, hn⟩ := (hc.outIdx i).2 hil
    obtain ⟨s, hs, hsk⟩ := houtw n i hn
    have hr3 := r3 n i (mem_indices.2 (by rw [hn]; rfl)) hn
    simp only [hs, List.headD_cons] at hr3
    rw [hr3] at hi
    cases hi
    obtain ⟨op, hop⟩ := Option.isSome_iff_exists.1 ((hksm s).1 hsk)
    have hb' : ∀ m, c.graph.weight s = some m → mapOp mode m = some op := fun m h => by rw [h] at hop; exact hop
    rcases innerB_iff.1 ((hksm s).1 hsk) with h | h | h
    · exact ⟨_, op, hb' _ h, by rw [hkw s hsk]; exact hop⟩
    · exact ⟨_, op, hb' _ h, by rw [hkw s hsk]; exact hop⟩
    · exact ⟨_, op, hb' _ h, by rw [hkw s hsk]; exact hop⟩
  · -- sources of the edges
    intro e he
    simp only [List.mem_append, List.mem_reverse] at he
    by_cases hg : e ∈ g.edges
    · exact Or.inl hg
    · have : e ∈ A ++ B := by
        rw [List.mem_append]; tauto
      obtain ⟨e', he', rfl⟩ := List.mem_map.1 (hAB.mem_iff.1 this)
      simp only [List.mem_filter, decide_eq_true_eq] at he'
      right
      by_cases h : e'.1 ∈ ks
      · right
        simp only [R, if_pos h]
        obtain ⟨op, hop⟩ := Option.isSome_iff_exists.1 ((hksm _).1 h)
        cases hm : c.graph.weight e'.1 with
        | none => rw [hm] at hop; cases hop
        | some m => rw [hm] at hop; exact ⟨m, op, hop, by rw [hkw _ h, hm]; exact hop⟩
      · left
        obtain ⟨op, hop⟩ := Option.isSome_iff_exists.1 (hw.live _ he'.1).1
        rw [hksm, innerB_iff] at h
        cases op with
        | output j => exact absurd hop (hw.sink _ he'.1 j)
        | «variable» j =>
          have hj := hvar _ _ hop
          have hjl := (List.getElem?_eq_some_iff.1 hj).1
          have hnj : nodes[j]? = some (nodes[j]'(by omega)) := List.getElem?_eq_getElem (by omega)
          simp only [R]
          rw [if_neg (hnotks _ _ hop), lookup_zip _ _ j _ _ hind hj hnj]
          exact List.mem_of_getElem? hnj
        | mux => exact absurd (Or.inl hop) h
        | zero => exact absurd (Or.inr (Or.inl hop)) h
        | one => exact absurd (Or.inr (Or.inr hop)) h
  · -- values
    have hext : FExt g ⟨ns, B.reverse ++ (A.reverse ++ g.edges)⟩ := by
      intro n x hx
      refine ⟨hold _ _ _ hx, ?_⟩
      have hlt := lt_of_weight hx
      show List.filter _ _ = _
      have hno : ∀ l : List (Nat × Nat × FheEdge), (∀ e ∈ l, e ∈ A ++ B) → l.filter (fun e => e.2.1 == n) = [] := by
        intro l hl
        rw [List.filter_eq_nil_iff]
        intro e he
        obtain ⟨e', he', rfl⟩ := List.mem_map.1 (hAB.mem_iff.1 (hl e he))
        simp only [R, beq_iff_eq]
        omega
      simp only [List.filter_append]
      rw [hno B.reverse (by intro e he; rw [List.mem_append]; exact Or.inr (List.mem_reverse.1 he)),
        hno A.reverse (by intro e he; rw [List.mem_append]; exact Or.inl (List.mem_reverse.1 he))]
      rfl
    generalize hG : (⟨ns, B.reverse ++ (A.reverse ++ g.edges)⟩ : FGraph) = G at hext ⊢
    have hGw : ∀ n ∈ ks, G.weight (b + ks.idxOf n) = (c.graph.weight n).bind (mapOp mode) := by
      intro n hn; rw [← hG]; exact hkw n hn _
    have hGin : ∀ n ∈ ks, (G.inEdges (b + ks.idxOf n)).Perm ((c.graph.inEdges n).map R) := by
      intro n hn
      have hgl : g.edges.filter (fun e => e.2.1 == b + ks.idxOf n) = [] := by
        rw [List.filter_eq_nil_iff]
        intro e he
        obtain ⟨x, hx⟩ := Option.isSome_iff_exists.1 (hl e he).2
        have := lt_of_weight hx
        simp; omega
      have h1 : G.inEdges (b + ks.idxOf n) = (B.reverse ++ A.reverse).filter (fun e => e.2.1 == b + ks.idxOf n) := by
        rw [← hG]
        show List.filter _ _ = _
        rw [← List.append_assoc, List.filter_append, hgl, List.append_nil]
      rw [h1, ← List.reverse_append]
      refine ((List.reverse_perm (A ++ B)).filter _).trans ((hAB.filter _).trans (List.Perm.of_eq ?_))
      rw [List.filter_map, List.filter_filter]
      congr 1
      show List.filter _ _ = List.filter _ _
      apply List.filter_congr
      intro e he
      by_cases hen : e.2.1 = n
      · subst hen; simp [R, hn]
      · have : ¬ (e.2.1 ∈ ks ∧ b + ks.idxOf e.2.1 = b + ks.idxOf n) := by
          rintro ⟨h1, h2⟩
          have h3 := idxOf_get h1
          rw [show ks.idxOf e.2.1 = ks.idxOf n by omega, idxOf_get hn] at h3
          exact hen (Option.some.inj h3).symm
        by_cases hm : e.2.1 ∈ ks
        · have : b + ks.idxOf e.2.1 ≠ b + ks.idxOf n := fun h => this ⟨hm, h⟩
          simp only [Function.comp, R, hm, decide_true, Bool.and_true, beq_eq_false_iff_ne.2 this, beq_eq_false_iff_ne.2 hen]
        · simp [hm, hen]
    have hnil : ∀ n op, c.graph.weight n = some op → (op = .zero ∨ op = .one) → c.graph.inEdges n = [] := by
      intro n op h hop
      apply List.eq_nil_iff_forall_not_mem.2
      intro e he
      obtain ⟨h1, h2⟩ := mem_inEdges'.1 he
      have := hw.kind e h1 op (by rw [h2]; exact h)
      rcases hop with rfl | rfl <;> exact this
    constructor
    · let ψ : Nat → Nat := fun n => if n ∈ ks then b + ks.idxOf n else ((c.inputs.zip nodes).lookup n).getD 0
      have hψ : ∀ n ∈ ks, ψ n = b + ks.idxOf n := fun n hn => if_pos hn
      refine ⟨ψ, ?_, ?_, ?_, ?_, ?_⟩
      · intro n hn
        rw [hψ n ((hksm n).2 hn)]; exact hGw n ((hksm n).2 hn)
      · intro n hn
        have hk := (hksm n).2 hn
        rw [hψ n hk]
        refine (hGin n hk).trans (List.Perm.of_eq ?_)
        apply List.map_congr_left
        intro e he
        have h2 := (mem_inEdges'.1 he).2
        simp only [R, h2, ψ, if_pos hk]
      · intro n j m hn hm
        show (if n ∈ ks then _ else _) = m
        rw [if_neg (hnotks n j hn), lookup_zip _ _ j _ _ hind (hvar _ _ hn) hm]; rfl
      · intro m h0 hm
        have hmb : ¬ m < b := by
          intro hlt
          rw [← hG] at hm
          unfold weight at hm h0
          rw [← hns, List.getD_eq_getElem?_getD, List.getElem?_append_left (by omega), ← List.getD_eq_getElem?_getD, h0] at hm
          cases hm
        obtain ⟨x, hx⟩ := Option.isSome_iff_exists.1 hm
        have hml := lt_of_weight hx
        rw [← hG] at hml
        simp only [← hns, List.length_append, List.length_map, hb] at hml
        have hmem : ks[m - b]'(by omega) ∈ ks := List.getElem_mem _
        refine ⟨ks[m - b]'(by omega), (hksm _).1 hmem, ?_⟩
        rw [hψ _ hmem, hksn.idxOf_getElem]; omega
      · intro n i hn
        obtain ⟨s, hs, hm⟩ := houtw n i hn
        have hr3 := r3 n i (mem_indices.2 (by rw [hn]; rfl)) hn
        simp only [hs, List.headD_cons] at hr3
        exact ⟨s, hs, (hksm s).1 hm, by rw [hψ s hm]; exact hr3⟩
    intro deg cells env hnodes
    have hval : ∀ n v, Eval c.graph env n v → n ∈ ks → FEval deg cells G (b + ks.idxOf n) (mode.val v) := by
      intro n v hev
      induction hev with
      | @zero n h =>
        intro hn
        have hi := hGin n hn
        rw [hnil n _ h (Or.inl rfl)] at hi
        have hwt := hGw n hn
        rw [h] at hwt
        refine FEval.intro hwt hi (fun _ => .lwe0 false) (by simp) ?_
        cases mode <;> rfl
      | @one n h =>
        intro hn
        have hi := hGin n hn
        rw [hnil n _ h (Or.inr rfl)] at hi
        have hwt := hGw n hn
        rw [h] at hwt
        refine FEval.intro hwt hi (fun _ => .lwe0 false) (by simp) ?_
        cases mode <;> rfl
      | var h => intro hn; exact absurd hn (hnotks _ _ h)
      | output h _ _ _ =>
        intro hn
        rcases innerB_iff.1 ((hksm _).1 hn) with h' | h' | h' <;> rw [h] at h' <;> cases h'
      | @mux n s l h bs bl bh hwm hs hlo hhi es _ _ ihs ihl ihh =>
        intro hn
        obtain ⟨s', l', h', hperm⟩ := hw.mux1 n hwm
        have hi := (hGin n hn).trans (hperm.map R)
        have e1 : (s', n, MuxEdge.select) ∈ c.graph.edges := mem_inEdges.1 (hperm.mem_iff.2 (by simp))
        have e2 : (l', n, MuxEdge.low) ∈ c.graph.edges := mem_inEdges.1 (hperm.mem_iff.2 (by simp))
        have e3 : (h', n, MuxEdge.high) ∈ c.graph.edges := mem_inEdges.1 (hperm.mem_iff.2 (by simp))
        obtain rfl := hw.unique hs e1
        obtain rfl := hw.unique hlo e2
        obtain rfl := hw.unique hhi e3
        obtain ⟨j, hj⟩ := (ht _ e1).1 rfl
        have inner : ∀ m k, (m, n, k) ∈ c.graph.edges → k ≠ MuxEdge.select → m ∈ ks := by
          intro m k he hk
          obtain ⟨op, hop⟩ := Option.isSome_iff_exists.1 (hw.live _ he).1
          rw [hksm, innerB_iff]
          cases op with
          | output j => exact absurd hop (hw.sink _ he j)
          | «variable» j => exact absurd ((ht _ he).2 ⟨j, hop⟩) hk
          | mux => exact Or.inl hop
          | zero => exact Or.inr (Or.inl hop)
          | one => exact Or.inr (Or.inr hop)
        have hlk := inner l _ e2 (by decide)
        have hhk := inner h _ e3 (by decide)
        have hsv : FEval deg cells G (R (s, n, .select)).1 (.ggsw1 bs) := by
          have hbs : bs = env j := by
            cases es with
            | var h => rw [hj] at h; cases h; rfl
            | zero h => rw [hj] at h; cases h
            | one h => rw [hj] at h; cases h
            | mux h => rw [hj] at h; cases h
            | output h => rw [hj] at h; cases h
          have hjn := hvar _ _ hj
          have hjl := (List.getElem?_eq_some_iff.1 hjn).1
          have hnj : nodes[j]? = some (nodes[j]'(by omega)) := List.getElem?_eq_getElem (by omega)
          simp only [R]
          rw [if_neg (hnotks _ _ hj), lookup_zip _ _ j _ _ hind hjn hnj, hbs]
          exact hext.eval (hnodes j _ hnj)
        have hlv : FEval deg cells G (R (l, n, .low)).1 (mode.val bl) := by
          simp only [R, if_pos hlk]; exact ihl hlk
        have hhv : FEval deg cells G (R (h, n, .high)).1 (mode.val bh) := by
          simp only [R, if_pos hhk]; exact ihh hhk
        have hwt := hGw n hn
        rw [hwm] at hwt
        refine FEval.intro hwt hi (fun e => match e.2.2 with | .sel => .ggsw1 bs | .low => mode.val bl | _ => mode.val bh) ?_ ?_
        · simp only [List.map_cons, List.map_nil, List.mem_cons, List.not_mem_nil, or_false]
          rintro e (rfl | rfl | rfl)
          · exact hsv
          · exact hlv
          · exact hhv
        · cases mode <;> cases bs <;> rfl
    constructor
    rotate_left
    · intro m h0 hm
      have hmb : ¬ m < b := by
        intro hlt
        rw [← hG] at hm
        unfold weight at hm h0
        rw [← hns, List.getD_eq_getElem?_getD, List.getElem?_append_left (by omega), ← List.getD_eq_getElem?_getD, h0] at hm
        cases hm
      obtain ⟨x, hx⟩ := Option.isSome_iff_exists.1 hm
      have hml := lt_of_weight hx
      rw [← hG] at hml
      simp only [← hns, List.length_append, List.length_map, hb] at hml
      have hk : ks[m - b]? = some (ks[m - b]'(by omega)) := List.getElem?_eq_getElem (by omega)
      have hmem : ks[m - b]'(by omega) ∈ ks := List.getElem_mem _
      have hidx : m = b + ks.idxOf (ks[m - b]'(by omega)) := by
        rw [hksn.idxOf_getElem]; omega
      obtain ⟨v, hv⟩ := eval_total hw.toComplete env (ks[m - b]'(by omega)) (by
        obtain ⟨op, hop⟩ := Option.isSome_iff_exists.1 ((hksm _).1 hmem)
        rcases innerB_iff.1 ((hksm _).1 hmem) with h | h | h <;> rw [h] <;> rfl)
      have := hval _ v hv hmem
      rw [← hidx] at this
      refine ⟨⟨_, this⟩, ?_⟩
      have hwt := hGw _ hmem
      rw [← hidx, hx] at hwt
      cases hcw : c.graph.weight (ks[m - b]'(by omega)) with
      | none => rw [hcw] at hwt; cases hwt
      | some mo => rw [hcw] at hwt; exact ⟨mo, x, hwt.symm, hx⟩
    intro i f r hf hr
    obtain ⟨n, hn⟩ := (hc.outIdx i).2 (List.getElem?_eq_some_iff.1 hf).1
    have hr' := r3 n i (mem_indices.2 (by rw [hn]; rfl)) hn
    rw [hr] at hr'
    obtain ⟨s, hs, hm⟩ := houtw n i hn
    rw [hs] at hr'
    have hrs : r = b + ks.idxOf s := Option.some.inj hr'
    rw [hrs]
    refine hval s _ ?_ hm
    have hev := (hc.value n i f hn hf env (f env)).2 rfl
    generalize f env = fv at hev
    cases hev with
    | zero h => rw [hn] at h; cases h
    | one h => rw [hn] at h; cases h
    | var h => rw [hn] at h; cases h
    | mux h => rw [hn] at h; cases h
    | @output _ _ s' _ h he hv =>
      have : (s', n, MuxEdge.output) ∈ c.graph.inEdges n := mem_inEdges.2 he
      rw [hs] at this
      simp only [List.mem_singleton, Prod.mk.injEq] at this
      rw [← this.1]; exact hv

theorem insertMux_full {g : FGraph} {c : MuxCircuit} {nIn : Nat} {outs} {nodes : List Nat} {mode : MuxMode} (hl : Live g) (hw : WF c.graph)
    (hc : Computes c nIn outs) (ht : SelectorsOnly c.graph) (hlen : nodes.length = nIn)
    (hacc : ∀ n ∈ nodes, ∃ op, g.weight n = some op ∧ acceptsMux op = true) :
    ∃ g' res, insertMuxCircuit g c nodes mode = some (g', res) ∧ Live g' ∧ FExt g g' ∧ res.length = outs.length ∧
      (∀ r ∈ res, ∃ m op, mapOp mode m = some op ∧ g'.weight r = some op) ∧
      (∀ e ∈ g'.edges, e ∈ g.edges ∨ e.1 ∈ nodes ∨ ∃ m op, mapOp mode m = some op ∧ g'.weight e.1 = some op) ∧
      ∀ deg cells env, (∀ (i n : Nat), nodes[i]? = some n → FEval deg cells g n (.ggsw1 (env i))) →
        (∀ (i : Nat) f r, outs[i]? = some f → res[i]? = some r → FEval deg cells g' r (mode.val (f env))) ∧
        ∀ m, g.weight m = none → (g'.weight m).isSome → (∃ v, FEval deg cells g' m v) ∧ ∃ mo op, mapOp mode mo = some op ∧ g'.weight m = some op := by
  obtain ⟨g', res, h1, h2, h3, h4, h5, h6, _, h8⟩ := insertMux_struct (mode := mode) hl hw hc ht hlen hacc
  exact ⟨g', res, h1, h2, h3, h4, h5, h6, h8⟩

theorem mapOp_typed {mode : MuxMode} {m op} (h : mapOp mode m = some op) : ∃ t, opType op = some t := by
  cases mode <;> cases m <;> simp only [mapOp, Option.some.injEq, reduceCtorEq] at h <;> subst h <;> exact ⟨_, rfl⟩

theorem insertMux_ok {g : FGraph} {c : MuxCircuit} {nIn : Nat} {outs} {nodes : List Nat} {mode : MuxMode} (hl : Live g) (hw : WF c.graph)
    (hc : Computes c nIn outs) (ht : SelectorsOnly c.graph) (hlen : nodes.length = nIn)
    (hacc : ∀ n ∈ nodes, ∃ op, g.weight n = some op ∧ acceptsMux op = true) :
    ∃ g' res, insertMuxCircuit g c nodes mode = some (g', res) ∧ Live g' ∧ FExt g g' ∧ res.length = outs.length ∧
      (∀ r ∈ res, ∃ m op, mapOp mode m = some op ∧ g'.weight r = some op) ∧
      ∀ deg cells env, (∀ (i n : Nat), nodes[i]? = some n → FEval deg cells g n (.ggsw1 (env i))) →
        ∀ (i : Nat) f r, outs[i]? = some f → res[i]? = some r → FEval deg cells g' r (mode.val (f env)) := by
  obtain ⟨g', res, h1, h2, h3, h4, h5, _, h7⟩ := insertMux_full (mode := mode) hl hw hc ht hlen hacc
  exact ⟨g', res, h1, h2, h3, h4, h5, fun deg cells env hn => (h7 deg cells env hn).1⟩

/-- An inserted circuit cannot fail. -/
theorem insertMux_good {g : FGraph} {c : MuxCircuit} {nIn : Nat} {outs} {nodes : List Nat} {mode : MuxMode} (hl : Live g) (hw : WF c.graph)
    (hc : Computes c nIn outs) (ht : SelectorsOnly c.graph) (hlen : nodes.length = nIn)
    (hacc : ∀ n ∈ nodes, ∃ op, g.weight n = some op ∧ acceptsMux op = true) (hty : ∀ n ∈ nodes, ∃ op, g.weight n = some op ∧ opType op = some .ggsw1)
    {g' res} (hg' : insertMuxCircuit g c nodes mode = some (g', res)) {deg : Nat} {io : Nat → FheOp → Prop} (hg : Good deg io g) : Good deg io g' := by
  obtain ⟨g1, res1, h1, h2, h3, h4, h5, h6, h7⟩ := insertMux_full (mode := mode) hl hw hc ht hlen hacc
  rw [hg'] at h1
  cases h1
  have env' : ∀ cells, CellsTyped cells → ∃ env : Nat → Bool, ∀ (i n : Nat), nodes[i]? = some n → FEval deg cells g n (.ggsw1 (env i)) := by
    intro cells hcells
    have : ∀ i : Nat, ∃ b, ∀ n, nodes[i]? = some n → FEval deg cells g n (.ggsw1 b) := by
      intro i
      cases hn : nodes[i]? with
      | none => exact ⟨false, by intro n h; cases h⟩
      | some n =>
        obtain ⟨op, w1, w2⟩ := hty n (List.mem_of_getElem? hn)
        obtain ⟨v, hv⟩ := hg.runs cells hcells n (by rw [w1]; rfl)
        obtain ⟨b, rfl⟩ := Val.of_ggsw1 (feval_type hcells hv w1 w2)
        exact ⟨b, by intro n' h; cases h; exact hv⟩
    choose env henv using this
    exact ⟨env, henv⟩
  refine hg.ext h3 ?_ ?_ ?_
  · intro e he
    rcases h6 e he with h | h | ⟨m, op, m1, m2⟩
    · exact Or.inl h
    · obtain ⟨op, w1, w2⟩ := hty _ h
      exact Or.inr ⟨op, _, (h3 _ _ w1).1, w2⟩
    · obtain ⟨t, ht⟩ := mapOp_typed m1
      exact Or.inr ⟨op, t, m2, ht⟩
  · intro cells hcells m hm0 hm
    obtain ⟨env, henv⟩ := env' cells hcells
    exact ((h7 deg cells env henv).2 m hm0 hm).1
  · intro m op hm0 hm
    obtain ⟨env, henv⟩ := env' (fun t _ => ctOf t false) (fun t _ => ctOf_type t false)
    obtain ⟨_, mo, op', m1, m2⟩ := (h7 deg _ env henv).2 m hm0 (by rw [hm]; rfl)
    rw [hm] at m2
    cases m2
    refine hg.internal _ _ ⟨mapOp_typed m1, ?_⟩
    intro t c h
    subst h
    cases mode <;> cases mo <;> simp [mapOp, MuxMode.mux, MuxMode.one, MuxMode.zero] at m1

end Spf.Fhe
