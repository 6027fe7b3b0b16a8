import Verif.Proof.FluentPack
import Verif.Model.Computer
import Verif.Proof.SchedGen
import Verif.Spec.CtNoise
/-! The noise analysis of circuits as they are built. -/
namespace Spf.Fluent
open Spf.Spec Spf.Fhe Spf.Props Graph

variable {V : Type} {ex : FheOp → List (V × FheEdge) → Option V}

theorem FExt_neval {g g' : FGraph} (h : FExt g g') {n v} (he : NodeEval ex g n v) : NodeEval ex g' n v := by
  induction he with
  | op f hw _ hx ih =>
    obtain ⟨h1, h2⟩ := h _ _ hw
    refine .op f h1 ?_ (by rw [h2]; exact hx)
    rw [h2]; exact ih

theorem neval_live {g : FGraph} {n v} (he : NodeEval ex g n v) : (g.weight n).isSome := by
  cases he with
  | op f hw _ _ => rw [hw]; rfl

theorem ext1_neval {g : FGraph} (hl : Live g) {op : FheOp} {es : List (Nat × FheEdge)} (f : Nat → V) {v}
    (hf : ∀ p ∈ es, NodeEval ex g p.1 (f p.1)) (hx : ex op (es.map fun p => (f p.1, p.2)) = some v) :
    NodeEval ex (ext1 g op es) g.nodes.length v := by
  have hin : (ext1 g op es).inEdges g.nodes.length = es.map fun p => (p.1, g.nodes.length, p.2) := by
    have := extF_in_new hl (ops := [op]) (es := es.map fun p => (p.1, g.nodes.length, p.2)) (i := 0)
    rw [Nat.add_zero] at this
    unfold ext1
    rw [this, List.filter_eq_self]
    intro e he
    obtain ⟨p, _, rfl⟩ := List.mem_map.1 he
    simp
  refine .op f (ext1_weight g op es) ?_ ?_
  · rw [hin]
    intro e he
    obtain ⟨p, hp, rfl⟩ := List.mem_map.1 he
    exact FExt_neval (ext1_ext g op es) (hf p hp)
  · rw [hin, List.map_map]; exact hx

/-- every node has a value, and `Q` holds of it -/
def AllN (ex : FheOp → List (V × FheEdge) → Option V) (Q : FheOp → V → Prop) (g : FGraph) : Prop :=
  ∀ a op, g.weight a = some op → ∃ B, NodeEval ex g a B ∧ Q op B

variable {Q : FheOp → V → Prop}

theorem AllN.ext {g g' : FGraph} (h : FExt g g') (hg : AllN ex Q g) (hnew : ∀ a op, g.weight a = none → g'.weight a = some op → ∃ B, NodeEval ex g' a B ∧ Q op B) :
    AllN ex Q g' := by
  intro a op ha
  cases h0 : g.weight a with
  | none => exact hnew a op h0 ha
  | some op' =>
    obtain ⟨h1, _⟩ := h a op' h0
    rw [h1] at ha; cases ha
    obtain ⟨B, b1, b2⟩ := hg a _ h0
    exact ⟨B, FExt_neval h b1, b2⟩

/-- the result of a builder step -/
structure NGrow (ex : FheOp → List (V × FheEdge) → Option V) (Q : FheOp → V → Prop) (g g' : FGraph) : Prop extends Grow g g' where
  all : AllN ex Q g → AllN ex Q g'

theorem NGrow.refl {g : FGraph} (h : Live g) : NGrow ex Q g g := ⟨Grow.refl h, id⟩
theorem NGrow.trans {a b c : FGraph} (h : NGrow ex Q a b) (h' : NGrow ex Q b c) : NGrow ex Q a c := ⟨h.toGrow.trans h'.toGrow, fun x => h'.all (h.all x)⟩

theorem ext1_ngrow {g : FGraph} (hl : Live g) {op : FheOp} {es : List (Nat × FheEdge)} (f : Nat → V) {v}
    (hf : ∀ p ∈ es, NodeEval ex g p.1 (f p.1)) (hx : ex op (es.map fun p => (f p.1, p.2)) = some v) (hq : Q op v) :
    NGrow ex Q g (ext1 g op es) ∧ NodeEval ex (ext1 g op es) g.nodes.length v := by
  have hn := ext1_neval hl f hf hx
  refine ⟨⟨⟨ext1_live hl fun p hp => neval_live (hf p hp), ext1_ext _ _ _⟩, fun hg => hg.ext (ext1_ext _ _ _) ?_⟩, hn⟩
  intro a o h0 ha
  obtain ⟨i, hi, rfl⟩ := extF_new_cases h0 (show ((ext1 g op es).weight a).isSome by rw [ha]; rfl)
  have : i = 0 := by simpa using hi
  subst this
  rw [Nat.add_zero] at ha ⊢
  rw [ext1_weight] at ha
  cases ha
  exact ⟨v, hn, hq⟩

theorem neval_ext {g g' : FGraph} (h : FExt g g') {ns Bs} (hb : List.Forall₂ (NodeEval ex g) ns Bs) : List.Forall₂ (NodeEval ex g') ns Bs :=
  hb.imp fun _ _ => FExt_neval h

/-! ### the fluent operations -/

variable {W : Nat} {P : CtExec.EvalParams} {ν : NoiseLevels} {nz : CtType → Nat → Nat} {Q : FheOp → Nat → Prop}

theorem graphInputs_noise (hQ : ∀ op B, (∀ t c, op ≠ .output t c) → Q op B) (t : CtType) : ∀ (cs : List Nat) (g : FGraph), Live g →
    NGrow (noiseOp W P ν nz) Q g (graphInputs t cs g).1 ∧ List.Forall₂ (NodeEval (noiseOp W P ν nz) (graphInputs t cs g).1) (graphInputs t cs g).2 (cs.map (nz t))
  | [], g, hl => ⟨NGrow.refl hl, .nil⟩
  | c :: cs, g, hl => by
    obtain ⟨h1, h2⟩ := ext1_ngrow (ex := noiseOp W P ν nz) (Q := Q) hl (op := .input t c) (es := []) (fun _ => 0) (v := nz t c) (by simp) (by simp [noiseOp])
      (hQ _ _ (by intro _ _ h; cases h))
    obtain ⟨h3, h4⟩ := graphInputs_noise hQ t cs _ h1.live
    exact ⟨h1.trans h3, .cons (FExt_neval h3.ext h2) h4⟩

theorem shiftBits_noise (hQ : ∀ op B, (∀ t c, op ≠ .output t c) → Q op B) : ∀ (ns : List Nat) (i : Nat) (g : FGraph) (Bs : List Nat), Live g →
    List.Forall₂ (NodeEval (noiseOp W P ν nz) g) ns Bs → ∀ g' ms, shiftBits i ns g = some (g', ms) →
    NGrow (noiseOp W P ν nz) Q g g' ∧ List.Forall₂ (NodeEval (noiseOp W P ν nz) g') ms Bs
  | [], i, g, Bs, hl, hb, g', ms, h => by
    cases hb; cases h; exact ⟨NGrow.refl hl, .nil⟩
  | n :: ns, i, g, _, hl, .cons (b := B) (l₂ := Bs) hx hxs, g', ms, h => by
    by_cases hi : i > 0
    · obtain ⟨h1, h2⟩ := ext1_ngrow (ex := noiseOp W P ν nz) (Q := Q) hl (op := .mulXN i) (es := [(n, .unary)]) (fun _ => B) (v := B) (by simpa using hx) (by simp [noiseOp])
        (hQ _ _ (by intro _ _ h; cases h))
      have he := addEdge_ext1 (op := .mulXN i) (es := []) (k := FheEdge.unary) (neval_live hx)
      simp only [shiftBits, if_pos hi, addNode_ext1, he] at h
      cases h3 : shiftBits (i + 1) ns (ext1 g (.mulXN i) [(n, .unary)]) with
      | none => rw [h3] at h; cases h
      | some r =>
        rw [h3] at h; cases h
        obtain ⟨h4, h5⟩ := shiftBits_noise hQ ns (i + 1) _ Bs h1.live (neval_ext h1.ext hxs) _ _ h3
        exact ⟨h1.trans h4, .cons (FExt_neval h4.ext h2) h5⟩
    · simp only [shiftBits, if_neg hi] at h
      cases h3 : shiftBits (i + 1) ns g with
      | none => rw [h3] at h; cases h
      | some r =>
        rw [h3] at h; cases h
        obtain ⟨h4, h5⟩ := shiftBits_noise hQ ns (i + 1) _ Bs hl hxs _ _ h3
        exact ⟨h4, .cons (FExt_neval h4.ext hx) h5⟩

theorem addPairs_noise (hQ : ∀ op B, (∀ t c, op ≠ .output t c) → Q op B) : ∀ (ns : List Nat) (g : FGraph) (Bs : List Nat), Live g →
    List.Forall₂ (NodeEval (noiseOp W P ν nz) g) ns Bs → ∀ g' ms, addPairs ns g = some (g', ms) →
    NGrow (noiseOp W P ν nz) Q g g' ∧ ∃ Bs', List.Forall₂ (NodeEval (noiseOp W P ν nz) g') ms Bs' ∧ Bs'.sum = Bs.sum
  | [], g, Bs, hl, hb, g', ms, h => by
    cases h; exact ⟨NGrow.refl hl, Bs, hb, rfl⟩
  | [n], g, Bs, hl, hb, g', ms, h => by
    cases h; exact ⟨NGrow.refl hl, Bs, hb, rfl⟩
  | x :: y :: rest, g, _, hl, .cons (b := A) hx (.cons (b := B) (l₂ := Bs) hy hxs), g', ms, h => by
    have hf : ∃ f : Nat → Nat, f x = A ∧ f y = B ∨ (x = y ∧ A = B) := by
      by_cases hxy : x = y
      · subst hxy
        exact ⟨fun _ => A, Or.inr ⟨rfl, SchedG.NodeEval.unique hx hy⟩⟩
      · exact ⟨fun n => if n = x then A else B, Or.inl ⟨by simp, by simp [Ne.symm hxy]⟩⟩
    have hf : ∃ f : Nat → Nat, f x = A ∧ f y = B := by
      obtain ⟨f, h | ⟨rfl, rfl⟩⟩ := hf
      · exact ⟨f, h⟩
      · exact ⟨fun _ => A, rfl, rfl⟩
    obtain ⟨f, fx, fy⟩ := hf
    obtain ⟨h1, h2⟩ := ext1_ngrow (ex := noiseOp W P ν nz) (Q := Q) hl (op := .glweAdd) (es := [(y, .right), (x, .left)]) f (v := A + B) (by
      intro p hp
      simp only [List.mem_cons, List.not_mem_nil, or_false] at hp
      rcases hp with rfl | rfl
      · show NodeEval _ g y (f y)
        rw [fy]; exact hy
      · show NodeEval _ g x (f x)
        rw [fx]; exact hx) (by simp [noiseOp, pickNoise, fx, fy])
      (hQ _ _ (by intro _ _ h; cases h))
    have he1 := addEdge_ext1 (op := .glweAdd) (es := []) (k := FheEdge.left) (neval_live hx)
    have he2 := addEdge_ext1 (op := .glweAdd) (es := [(x, .left)]) (k := FheEdge.right) (neval_live hy)
    simp only [addPairs, addNode_ext1, he1, he2] at h
    cases h3 : addPairs rest (ext1 g .glweAdd [(y, .right), (x, .left)]) with
    | none => rw [h3] at h; cases h
    | some r =>
      rw [h3] at h; cases h
      obtain ⟨h4, Bs', h5, h6⟩ := addPairs_noise hQ rest _ Bs h1.live (neval_ext h1.ext hxs) _ _ h3
      exact ⟨h1.trans h4, (A + B) :: Bs', .cons (FExt_neval h4.ext h2) h5, by simp [h6]; omega⟩

theorem addTree_noise (hQ : ∀ op B, (∀ t c, op ≠ .output t c) → Q op B) : ∀ (k : Nat) (ns : List Nat) (g : FGraph) (Bs : List Nat), Live g →
    List.Forall₂ (NodeEval (noiseOp W P ν nz) g) ns Bs → ∀ g' ms, addTree k ns g = some (g', ms) →
    NGrow (noiseOp W P ν nz) Q g g' ∧ ∃ Bs', List.Forall₂ (NodeEval (noiseOp W P ν nz) g') ms Bs' ∧ Bs'.sum = Bs.sum
  | 0, ns, g, Bs, hl, hb, g', ms, h => by
    cases h; exact ⟨NGrow.refl hl, Bs, hb, rfl⟩
  | k + 1, ns, g, Bs, hl, hb, g', ms, h => by
    simp only [addTree] at h
    split at h
    · cases h3 : addPairs ns g with
      | none => rw [h3] at h; cases h
      | some r =>
        rw [h3] at h
        obtain ⟨h4, Bs', h5, h6⟩ := addPairs_noise hQ ns g Bs hl hb _ _ h3
        obtain ⟨h7, Bs'', h8, h9⟩ := addTree_noise hQ k _ _ Bs' h4.live h5 _ _ h
        exact ⟨h4.trans h7, Bs'', h8, h9.trans h6⟩
    · cases h

theorem pack_noise (hQ : ∀ op B, (∀ t c, op ≠ .output t c) → Q op B) {deg : Nat} {ns : List Nat} {g : FGraph} {Bs : List Nat} (hl : Live g)
    (hb : List.Forall₂ (NodeEval (noiseOp W P ν nz) g) ns Bs) {g' p} (h : pack deg ns g = some (g', p)) :
    NGrow (noiseOp W P ν nz) Q g g' ∧ NodeEval (noiseOp W P ν nz) g' p.id Bs.sum := by
  simp only [pack] at h
  split at h
  · split at h
    · cases h3 : shiftBits 0 ns g with
      | none => rw [h3] at h; cases h
      | some r =>
        rw [h3] at h
        obtain ⟨h4, h5⟩ := shiftBits_noise hQ ns 0 g Bs hl hb _ _ h3
        simp only at h
        cases h6 : addTree (Nat.log2 (nextPowerOfTwo ns.length)) r.2 r.1 with
        | none => rw [h6] at h; cases h
        | some r' =>
          rw [h6] at h
          obtain ⟨h7, Bs', h8, h9⟩ := addTree_noise hQ _ _ _ _ h4.live h5 _ _ h6
          obtain ⟨g2, ids⟩ := r'
          match ids, h, h8 with
          | [id], h, .cons hx .nil =>
            cases h
            simp only [List.sum_cons, List.sum_nil, Nat.add_zero] at h9
            rw [h9] at hx
            exact ⟨h4.trans h7, hx⟩
    · cases h
  · cases h

theorem unpackFrom_noise (hQ : ∀ op B, (∀ t c, op ≠ .output t c) → Q op B) (id B : Nat) : ∀ (k i : Nat) (g : FGraph), Live g →
    NodeEval (noiseOp W P ν nz) g id B → ∀ g' ms, unpackFrom id k i g = some (g', ms) →
    NGrow (noiseOp W P ν nz) Q g g' ∧ ∀ m ∈ ms, NodeEval (noiseOp W P ν nz) g' m B
  | 0, i, g, hl, hb, g', ms, h => by cases h; exact ⟨NGrow.refl hl, by simp⟩
  | k + 1, i, g, hl, hb, g', ms, h => by
    obtain ⟨h1, h2⟩ := ext1_ngrow (ex := noiseOp W P ν nz) (Q := Q) hl (op := .sampleExtract i) (es := [(id, .unary)]) (fun _ => B) (v := B) (by simpa using hb) (by simp [noiseOp])
      (hQ _ _ (by intro _ _ h; cases h))
    have he := addEdge_ext1 (op := .sampleExtract i) (es := []) (k := FheEdge.unary) (neval_live hb)
    simp only [unpackFrom, addNode_ext1, he] at h
    cases h3 : unpackFrom id k (i + 1) (ext1 g (.sampleExtract i) [(id, .unary)]) with
    | none => rw [h3] at h; cases h
    | some r =>
      rw [h3] at h; cases h
      obtain ⟨h4, h5⟩ := unpackFrom_noise hQ id B k (i + 1) _ h1.live (FExt_neval h1.ext hb) _ _ h3
      refine ⟨h1.trans h4, fun m hm => ?_⟩
      rcases List.mem_cons.1 hm with rfl | hm
      · exact FExt_neval h4.ext h2
      · exact h5 m hm

/-- two nodes at a time: `multiply_ggsw_glwe` of a node and a constant one -/
theorem mulOne_noise (hQ : ∀ op B, (∀ t c, op ≠ .output t c) → Q op B) {g : FGraph} (hl : Live g) {n B : Nat} (hn : NodeEval (noiseOp W P ν nz) g n B) :
    NGrow (noiseOp W P ν nz) Q g (extF g [.multiplyGgswGlwe, .oneGlwe1] [(n, g.nodes.length, .ggsw), (g.nodes.length + 1, g.nodes.length, .glwe)]) ∧
    NodeEval (noiseOp W P ν nz) (extF g [.multiplyGgswGlwe, .oneGlwe1] [(n, g.nodes.length, .ggsw), (g.nodes.length + 1, g.nodes.length, .glwe)])
      g.nodes.length (muxNoise W P ν B) := by
  generalize hes : [(n, g.nodes.length, FheEdge.ggsw), (g.nodes.length + 1, g.nodes.length, .glwe)] = es
  obtain ⟨opn, hwn⟩ := Option.isSome_iff_exists.1 (neval_live hn)
  have hlt := lt_of_weight hwn
  have hw0 := extF_weight_new g [.multiplyGgswGlwe, .oneGlwe1] es (i := 0) rfl
  have hw1 := extF_weight_new g [.multiplyGgswGlwe, .oneGlwe1] es (i := 1) rfl
  rw [Nat.add_zero] at hw0
  have hl' : Live (extF g [.multiplyGgswGlwe, .oneGlwe1] es) := by
    apply extF_live hl
    intro e he
    rw [← hes] at he
    simp only [List.mem_cons, List.not_mem_nil, or_false] at he
    rcases he with rfl | rfl
    · exact ⟨by rw [extF_weight_lt _ _ _ hlt, hwn]; rfl, by rw [hw0]; rfl⟩
    · exact ⟨by rw [hw1]; rfl, by rw [hw0]; rfl⟩
  have hext : FExt g (extF g [.multiplyGgswGlwe, .oneGlwe1] es) := extF_ext (by rw [← hes]; simp)
  have i0 := extF_in_new hl (ops := [.multiplyGgswGlwe, .oneGlwe1]) (es := es) (i := 0)
  have i1 := extF_in_new hl (ops := [.multiplyGgswGlwe, .oneGlwe1]) (es := es) (i := 1)
  simp [← hes] at i0 i1
  rw [hes] at i0 i1
  have e1 : NodeEval (noiseOp W P ν nz) (extF g [.multiplyGgswGlwe, .oneGlwe1] es) (g.nodes.length + 1) 0 :=
    .op (fun _ => 0) hw1 (by rw [i1]; simp) (by rw [i1]; simp [noiseOp])
  have e0 : NodeEval (noiseOp W P ν nz) (extF g [.multiplyGgswGlwe, .oneGlwe1] es) g.nodes.length (muxNoise W P ν B) := by
    refine .op (fun m => if m = n then B else 0) hw0 ?_ ?_
    · rw [i0, ← hes]
      intro e he
      simp only [List.mem_cons, List.not_mem_nil, or_false] at he
      rcases he with rfl | rfl
      · show NodeEval _ _ n (if n = n then B else 0)
        rw [if_pos rfl, hes]; exact FExt_neval hext hn
      · show NodeEval _ _ (g.nodes.length + 1) (if g.nodes.length + 1 = n then B else 0)
        rw [if_neg (by omega), hes]; exact e1
    · rw [i0, ← hes]
      show noiseOp W P ν nz _ [((if n = n then B else 0), FheEdge.ggsw), ((if g.nodes.length + 1 = n then B else 0), .glwe)] = _
      rw [if_pos rfl, if_neg (by omega)]
      simp [noiseOp, pickNoise]
  refine ⟨⟨⟨hl', hext⟩, fun hg => hg.ext hext ?_⟩, e0⟩
  intro a op h0 ha
  obtain ⟨i, hi, rfl⟩ := extF_new_cases h0 (by rw [ha]; rfl)
  simp only [List.length_cons, List.length_nil] at hi
  match i, hi, ha with
  | 0, _, ha =>
    rw [Nat.add_zero, hw0] at ha; cases ha
    exact ⟨_, e0, hQ _ _ (by intro _ _ h; cases h)⟩
  | 1, _, ha =>
    rw [hw1] at ha; cases ha
    exact ⟨_, e1, hQ _ _ (by intro _ _ h; cases h)⟩

/-- from an LWE ciphertext under the level-1 key to a fresh GLWE ciphertext: keyswitch, bootstrap, multiplication by one -/
theorem convert_noise (hQ : ∀ op B, (∀ t c, op ≠ .output t c) → Q op B) {g : FGraph} (hl : Live g) {n B : Nat} (hn : NodeEval (noiseOp W P ν nz) g n B)
    (hB : B + ksNoise W P ν < bootLimit W P ν) {g' m} (h : convert 5 g n .lwe1 .glwe1 = some (g', m)) :
    NGrow (noiseOp W P ν nz) Q g g' ∧ NodeEval (noiseOp W P ν nz) g' m (muxNoise W P ν (bootNoise W P ν)) := by
  obtain ⟨s1, v1⟩ := ext1_ngrow (ex := noiseOp W P ν nz) (Q := Q) hl (op := .keyswitchL1toL0) (es := [(n, .unary)]) (fun _ => B) (v := B + ksNoise W P ν)
    (by simpa using hn) (by simp [noiseOp]) (hQ _ _ (by intro _ _ h; cases h))
  have he1 := addEdge_ext1 (op := .keyswitchL1toL0) (es := []) (k := FheEdge.unary) (neval_live hn)
  generalize hg1 : ext1 g .keyswitchL1toL0 [(n, .unary)] = g1 at *
  generalize hn1 : g.nodes.length = n1 at *
  obtain ⟨s2, v2⟩ := ext1_ngrow (ex := noiseOp W P ν nz) (Q := Q) s1.live (op := .circuitBootstrap) (es := [(n1, .unary)]) (fun _ => B + ksNoise W P ν)
    (v := bootNoise W P ν) (by simpa using v1) (by simp [noiseOp, hB]) (hQ _ _ (by intro _ _ h; cases h))
  have he2 := addEdge_ext1 (op := .circuitBootstrap) (es := []) (k := FheEdge.unary) (neval_live v1)
  generalize hg2 : ext1 g1 .circuitBootstrap [(n1, .unary)] = g2 at *
  generalize hn2 : g1.nodes.length = n2 at *
  obtain ⟨s3, v3⟩ := mulOne_noise (Q := Q) hQ s2.live v2
  have hc := neval_live v2
  have hrun : convert 3 g2 n2 .ggsw1 .glwe1 =
      some (extF g2 [.multiplyGgswGlwe, .oneGlwe1] [(n2, g2.nodes.length, .ggsw), (g2.nodes.length + 1, g2.nodes.length, .glwe)], g2.nodes.length) := by
    have key : ∀ n es', n < g2.nodes.length + 2 → (n < g2.nodes.length → (g2.weight n).isSome) →
        ((⟨g2.nodes ++ [some .multiplyGgswGlwe, some .oneGlwe1], es'⟩ : FGraph).weight n).isSome := by
      intro n es' hn h0
      apply isSome_append g2.nodes [.multiplyGgswGlwe, .oneGlwe1] es' n
      by_cases hlt : n < g2.nodes.length
      · exact Or.inl (h0 hlt)
      · exact Or.inr ⟨by omega, by simp; omega⟩
    have hlt2 : n2 < g2.nodes.length := by
      obtain ⟨o, ho⟩ := Option.isSome_iff_exists.1 hc
      exact lt_of_weight ho
    simp only [convert, addNode, List.append_assoc, List.cons_append, List.nil_append, List.length_append,
      List.length_cons, List.length_nil, Nat.zero_add, Nat.reduceAdd, reduceCtorEq, if_false, if_true]
    rw [addEdge_ok (key _ _ (by omega) (by omega)) (key _ _ (by omega) (by omega))]
    simp only
    rw [addEdge_ok (key _ _ (by omega) (fun _ => hc)) (key _ _ (by omega) (by omega))]
    rfl
  have h5 : convert 5 g n .lwe1 .glwe1 = convert 3 g2 n2 .ggsw1 .glwe1 := by
    show (if (CtType.lwe1 = CtType.glwe1) then _ else _) = _
    rw [if_neg (by decide)]
    simp only [addNode_ext1, hn1, he1]
    show convert 4 g1 n1 .lwe0 .glwe1 = _
    show (if (CtType.lwe0 = CtType.glwe1) then _ else _) = _
    rw [if_neg (by decide)]
    simp only [addNode_ext1, hn2, he2]
  rw [h5, hrun] at h
  cases h
  exact ⟨(s1.trans s2).trans s3, v3⟩

theorem convertAll_noise (hQ : ∀ op B, (∀ t c, op ≠ .output t c) → Q op B) {B : Nat} (hB : B + ksNoise W P ν < bootLimit W P ν) : ∀ (ns : List Nat) (g : FGraph), Live g →
    (∀ n ∈ ns, NodeEval (noiseOp W P ν nz) g n B) → ∀ g' ms, convertAll .lwe1 .glwe1 ns g = some (g', ms) →
    NGrow (noiseOp W P ν nz) Q g g' ∧ ∀ m ∈ ms, NodeEval (noiseOp W P ν nz) g' m (muxNoise W P ν (bootNoise W P ν))
  | [], g, hl, hb, g', ms, h => by cases h; exact ⟨NGrow.refl hl, by simp⟩
  | n :: ns, g, hl, hb, g', ms, h => by
    simp only [convertAll] at h
    cases h3 : convert 5 g n .lwe1 .glwe1 with
    | none => rw [h3] at h; cases h
    | some r =>
      rw [h3] at h
      simp only at h
      obtain ⟨s1, v1⟩ := convert_noise (Q := Q) hQ hl (hb n (by simp)) hB h3
      cases h4 : convertAll .lwe1 .glwe1 ns r.1 with
      | none => rw [h4] at h; cases h
      | some r' =>
        rw [h4] at h; cases h
        obtain ⟨s2, v2⟩ := convertAll_noise hQ hB ns r.1 s1.live (fun m hm => FExt_neval s1.ext (hb m (by simp [hm]))) _ _ h4
        refine ⟨s1.trans s2, fun m hm => ?_⟩
        rcases List.mem_cons.1 hm with rfl | hm
        · exact FExt_neval s2.ext v1
        · exact v2 m hm

theorem collectOutputs_noise {t : CtType} {B : Nat} (hQ : ∀ c, Q (.output t c) B) : ∀ (ns cs : List Nat) (g : FGraph), Live g →
    (∀ n ∈ ns, NodeEval (noiseOp W P ν nz) g n B) → ∀ g' os, collectOutputs t ns cs g = some (g', os) → NGrow (noiseOp W P ν nz) Q g g'
  | [], _, g, hl, _, g', os, h => by simp only [collectOutputs] at h; cases h; exact NGrow.refl hl
  | n :: ns, [], g, hl, _, g', os, h => by simp only [collectOutputs] at h; cases h; exact NGrow.refl hl
  | n :: ns, c :: cs, g, hl, hb, g', os, h => by
    have hn := hb n (by simp)
    obtain ⟨h1, h2⟩ := ext1_ngrow (ex := noiseOp W P ν nz) (Q := Q) hl (op := .output t c) (es := [(n, .unary)]) (fun _ => B) (v := B) (by simpa using hn) (by simp [noiseOp])
      (hQ c)
    have he := addEdge_ext1 (op := .output t c) (es := []) (k := FheEdge.unary) (neval_live hn)
    simp only [collectOutputs, addNode_ext1, he] at h
    cases h3 : collectOutputs t ns cs (ext1 g (.output t c) [(n, .unary)]) with
    | none => rw [h3] at h; cases h
    | some r =>
      rw [h3] at h; cases h
      exact h1.trans (collectOutputs_noise hQ ns cs _ h1.live (fun m hm => FExt_neval h1.ext (hb m (by simp [hm]))) _ _ h3)

theorem all_new (ex : FheOp → List (Nat × FheEdge) → Option Nat) : AllN ex Q Ctx.new.circuit := by
  intro n op hn; simp [Ctx.new, Graph.weight, Graph.empty] at hn

theorem packInt_noise {deg : Nat} {ins : List Nat} {out : Nat} {g : FGraph} (h : packInt deg ins out = some g) :
    AllN (noiseOp W P ν nz) (fun op B => ∀ t c, op = .output t c → B = (ins.map (nz .glwe1)).sum) g := by
  have hQ : ∀ op B, (∀ t c, op ≠ .output t c) → (fun (op : FheOp) (B : Nat) => ∀ t c, op = .output t c → B = (ins.map (nz .glwe1)).sum) op B :=
    fun op B hne t c he => absurd he (hne t c)
  have hl0 : Live Ctx.new.circuit := by intro e he; cases he
  obtain ⟨s1, v1⟩ := graphInputs_noise (W := W) (P := P) (ν := ν) (nz := nz) hQ .glwe1 ins Ctx.new.circuit hl0
  simp only [packInt] at h
  cases h3 : pack deg (graphInputs .glwe1 ins Ctx.new.circuit).2 (graphInputs .glwe1 ins Ctx.new.circuit).1 with
  | none => rw [h3] at h; cases h
  | some r =>
    rw [h3] at h
    obtain ⟨s2, v2⟩ := pack_noise hQ s1.live v1 h3
    simp only at h
    cases h4 : collectOutputs .glwe1 [r.2.id] [out] r.1 with
    | none => rw [h4] at h; cases h
    | some r' =>
      rw [h4] at h; cases h
      have s3 := collectOutputs_noise (W := W) (P := P) (ν := ν) (nz := nz) (t := .glwe1) (B := (ins.map (nz .glwe1)).sum)
        (Q := fun op B => ∀ t c, op = .output t c → B = (ins.map (nz .glwe1)).sum) (fun c t c' _ => rfl) _ _ r.1 s2.live (by simpa using v2) _ _ h4
      exact s3.all (s2.all (s1.all (all_new _)))

theorem unpackInt_noise {w inp : Nat} {outs : List Nat} (hB : nz .glwe1 inp + ksNoise W P ν < bootLimit W P ν) {g : FGraph} (h : unpackInt w inp outs = some g) :
    AllN (noiseOp W P ν nz) (fun op B => ∀ t c, op = .output t c → B = muxNoise W P ν (bootNoise W P ν)) g := by
  have hQ : ∀ op B, (∀ t c, op ≠ .output t c) → (fun (op : FheOp) (B : Nat) => ∀ t c, op = .output t c → B = muxNoise W P ν (bootNoise W P ν)) op B :=
    fun op B hne t c he => absurd he (hne t c)
  have hl0 : Live Ctx.new.circuit := by intro e he; cases he
  obtain ⟨s1, v1⟩ := graphInputs_noise (W := W) (P := P) (ν := ν) (nz := nz) hQ .glwe1 [inp] Ctx.new.circuit hl0
  have v1 : NodeEval (noiseOp W P ν nz) (Ctx.new.circuit.addNode (.input .glwe1 inp)).1 (Ctx.new.circuit.addNode (.input .glwe1 inp)).2 (nz .glwe1 inp) := by
    cases v1 with
    | cons hx _ => exact hx
  have s1 : NGrow (noiseOp W P ν nz) _ Ctx.new.circuit (Ctx.new.circuit.addNode (.input .glwe1 inp)).1 := s1
  simp only [unpackInt] at h
  generalize (Ctx.new.circuit.addNode (.input .glwe1 inp)).1 = g1 at *
  generalize (Ctx.new.circuit.addNode (.input .glwe1 inp)).2 = n1 at *
  cases h3 : unpack ⟨w, n1⟩ g1 with
  | none => rw [h3] at h; cases h
  | some r =>
    rw [h3] at h
    simp only at h
    obtain ⟨s2, v2⟩ := unpackFrom_noise hQ n1 _ _ _ g1 s1.live v1 _ _ h3
    cases h4 : convertAll .lwe1 .glwe1 r.2 r.1 with
    | none => rw [h4] at h; cases h
    | some r' =>
      rw [h4] at h
      simp only at h
      obtain ⟨s3, v3⟩ := convertAll_noise hQ hB _ _ s2.live v2 _ _ h4
      split at h
      · cases h5 : collectOutputs .glwe1 r'.2 outs r'.1 with
        | none => rw [h5] at h; cases h
        | some r'' =>
          rw [h5] at h; cases h
          have s4 := collectOutputs_noise (W := W) (P := P) (ν := ν) (nz := nz) (t := .glwe1) (B := muxNoise W P ν (bootNoise W P ν))
            (Q := fun op B => ∀ t c, op = .output t c → B = muxNoise W P ν (bootNoise W P ν)) (fun c t c' _ => rfl) _ _ r'.1 s3.live v3 _ _ h5
          exact s4.all (s3.all (s2.all (s1.all (all_new _))))
      · cases h

end Spf.Fluent
