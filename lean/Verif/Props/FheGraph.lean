import Verif.Proof.InsertMux
import Verif.Props.MuxGraph
/-! C13 (inserting multiplexer circuits), C14 (pruning), C15 (ciphertext conversion). -/
namespace Spf.Props
open Spf.Mux Spf.Spec Spf.Fhe Graph

/-! ### C13 -/

/-- the ciphertext of a bit in the output kind of a mode -/
def bitIn : MuxMode → Bool → Val
  | .glwe, b => .glwe1 (constPoly b)
  | .glev, b => .glev1 b

/-- **C13.** Inserting a well-formed circuit that uses its inputs as selectors, wired to nodes of the accepted kinds,
never panics; it returns one node per output; if wired node `i` carries the GGSW bit `env i`, then returned node `i`
carries the bit `outs[i] env` in the ciphertext kind of the mode; and every node already present keeps its operator,
its operands and its value. -/
theorem C13_insert_mux {g : FGraph} {c : MuxCircuit} {nIn : Nat} {outs} {nodes : List Nat} {mode : MuxMode} (hl : Live g)
    (hw : WF c.graph) (hc : Computes c nIn outs) (hs : SelectorsOnly c.graph) (hlen : nodes.length = nIn)
    (hacc : ∀ n ∈ nodes, ∃ op, g.weight n = some op ∧ acceptsMux op = true) :
    ∃ g' res, insertMuxCircuit g c nodes mode = some (g', res) ∧ Live g' ∧ res.length = outs.length ∧
      (∀ deg cells env, (∀ (i n : Nat), nodes[i]? = some n → FEval deg cells g n (.ggsw1 (env i))) →
        ∀ (i : Nat) f r, outs[i]? = some f → res[i]? = some r → ∀ v, FEval deg cells g' r v ↔ v = bitIn mode (f env)) ∧
      (∀ n op, g.weight n = some op → g'.weight n = some op ∧ g'.inEdges n = g.inEdges n ∧
        ∀ deg cells v, FEval deg cells g' n v ↔ FEval deg cells g n v) := by
  obtain ⟨g', res, h1, h2, h3, h4, _, h5⟩ := insertMux_ok (mode := mode) hl hw hc hs hlen hacc
  refine ⟨g', res, h1, h2, h4, ?_, ?_⟩
  · intro deg cells env hn i f r hf hr v
    have := h5 deg cells env hn i f r hf hr
    have hb : mode.val (f env) = bitIn mode (f env) := by cases mode <;> rfl
    rw [hb] at this
    exact ⟨fun h => fdet h this, fun h => h ▸ this⟩
  · intro n op hop
    exact ⟨(h3 n op hop).1, (h3 n op hop).2, fun deg cells v => h3.eval_iff hl (by rw [hop]; rfl)⟩

/-- **C13 (end to end).** A list of reduced diagrams, converted and inserted, computes the diagrams' functions of the
wired encrypted bits. -/
theorem C13_insert_bdds {nv : Nat} {bdds : List (List BddNode)} (hv : ∀ b ∈ bdds, ValidBdd nv b) (hne : bdds ≠ [])
    {g : FGraph} {nodes : List Nat} {mode : MuxMode} (hl : Live g) (hlen : nodes.length = nv)
    (hacc : ∀ n ∈ nodes, ∃ op, g.weight n = some op ∧ acceptsMux op = true) :
    ∃ c g' res, fromBdds bdds = some c ∧ insertMuxCircuit g c nodes mode = some (g', res) ∧ res.length = bdds.length ∧
      ∀ deg cells env, (∀ (i n : Nat), nodes[i]? = some n → FEval deg cells g n (.ggsw1 (env i))) →
        ∀ (i : Nat) b r, bdds[i]? = some b → res[i]? = some r → FEval deg cells g' r (bitIn mode (bddFn b env)) := by
  obtain ⟨c, h1, h2, h3, h4⟩ := C11_from_bdds hv hne
  obtain ⟨g', res, a1, _, a3, a4, _⟩ := C13_insert_mux (mode := mode) hl h2 h3 h4 hlen hacc
  refine ⟨c, g', res, h1, a1, by rw [a3, List.length_map], ?_⟩
  intro deg cells env hn i b r hb hr
  exact (a4 deg cells env hn i (bddFn b) r (by rw [List.getElem?_map, hb]; rfl) hr _).2 rfl

/-- Two encrypted inputs, wired to the `xor`, `true`, `false` diagrams of C11. -/
def exF : FGraph := ⟨[some (.input .ggsw1 0), some .oneGgsw1], []⟩

example : ∃ c g' res, fromBdds exBdds = some c ∧ insertMuxCircuit exF c [0, 1] .glwe = some (g', res) ∧ res.length = 3 ∧
      ∀ deg cells env, (∀ (i n : Nat), [0, 1][i]? = some n → FEval deg cells exF n (.ggsw1 (env i))) →
        ∀ (i : Nat) b r, exBdds[i]? = some b → res[i]? = some r → FEval deg cells g' r (bitIn .glwe (bddFn b env)) :=
  C13_insert_bdds exBdds_valid (by decide) (by intro e he; cases he) rfl (by
    intro n hn
    simp only [List.mem_cons, List.not_mem_nil, or_false] at hn
    rcases hn with rfl | rfl
    · exact ⟨_, rfl, rfl⟩
    · exact ⟨_, rfl, rfl⟩)

/-- the wiring hypothesis of the example is met: the input cell holds an encryption of 0 -/
example : ∀ (i n : Nat), [0, 1][i]? = some n → FEval 8 (fun _ _ => .ggsw1 false) exF n (.ggsw1 (i == 1)) := by
  intro i n h
  match i, h with
  | 0, h => cases h; exact .op (fun _ => .lwe0 false) rfl (by intro e he; cases he) rfl
  | 1, h => cases h; exact .op (fun _ => .lwe0 false) rfl (by intro e he; cases he) rfl

/-! ### C14 -/

/-- **C14.** Pruning to `nodes`, whatever the iteration order of the hash map, never panics and returns a circuit and
a renaming such that: the renamed nodes are exactly those some required node depends on; the renaming is one-to-one
onto the nodes of the pruned circuit; operators are kept; and the value of every kept node (in particular of every
required node) is unchanged. -/
theorem C14_prune {g : FGraph} (hl : Live g) {nodes : List Nat} (hnodes : ∀ n ∈ nodes, (g.weight n).isSome)
    {order : List Nat → List Nat} (ho : ∀ l, (order l).Perm l) :
    ∃ out ren, prune g nodes order = some (out, ren) ∧
      (∀ n, (ren.lookup n).isSome ↔ ∃ r ∈ nodes, Reach g n r) ∧
      (∀ n n' m, ren.lookup n = some m → ren.lookup n' = some m → n = n') ∧
      (∀ m, m < out.nodes.length ↔ ∃ n, ren.lookup n = some m) ∧
      (∀ n m, ren.lookup n = some m → out.weight m = g.weight n) ∧
      ∀ deg cells n m, ren.lookup n = some m → ∀ v, FEval deg cells out m v ↔ FEval deg cells g n v := by
  obtain ⟨out, ks, h1, h2, h3, h4, h5, h6, _⟩ := prune_ok hl hnodes ho
  have hlk : ∀ n m, (ks.zipIdx.reverse).lookup n = some m ↔ ks[m]? = some n := lookup_zipIdx h2
  refine ⟨out, _, h1, ?_, ?_, ?_, ?_, ?_⟩
  · intro n
    rw [← h3]
    constructor
    · intro h
      obtain ⟨m, hm⟩ := Option.isSome_iff_exists.1 h
      exact List.mem_of_getElem? ((hlk n m).1 hm)
    · intro h
      obtain ⟨m, hm⟩ := List.getElem?_of_mem h
      rw [(hlk n m).2 hm]; rfl
  · intro n n' m a b
    rw [hlk] at a b
    rw [a] at b; exact Option.some.inj b
  · intro m
    rw [h4, List.length_map]
    constructor
    · intro h; exact ⟨ks[m], (hlk _ _).2 (List.getElem?_eq_getElem h)⟩
    · rintro ⟨n, hn⟩; exact (List.getElem?_eq_some_iff.1 ((hlk _ _).1 hn)).1
  · intro n m hm
    unfold weight
    rw [h4, List.getD_eq_getElem?_getD, List.getElem?_map, (hlk _ _).1 hm]; rfl
  · intro deg cells n m hm v
    have hm' := (hlk _ _).1 hm
    have hn := List.mem_of_getElem? hm'
    have hidx : ks.idxOf n = m := by
      have := idxOf_get hn
      exact (List.nodup_iff_getElem?_ne_getElem?.1 h2 |> fun hh => by
        by_contra hc
        have hml := (List.getElem?_eq_some_iff.1 hm').1
        have hil := (List.getElem?_eq_some_iff.1 this).1
        rcases Nat.lt_or_gt_of_ne hc with h | h
        · exact hh _ _ h hml (by rw [this, hm'])
        · exact hh _ _ h hil (by rw [this, hm']))
    rw [← hidx]
    refine prune_eval ?_ h4 h6 hn
    intro a ha e he
    rw [h3] at ha ⊢
    obtain ⟨r, hr, hreach⟩ := ha
    obtain ⟨he1, he2⟩ := mem_in.1 he
    exact ⟨r, hr, .step (k := e.2.2) (b := a) (by rw [← he2]; exact he1) hreach⟩

/-- **C14 (size).** The pruned circuit has exactly the edges between kept nodes that enter kept nodes: as many as the
kept nodes have operands. -/
theorem C14_prune_edges {g : FGraph} (hl : Live g) {nodes : List Nat} (hnodes : ∀ n ∈ nodes, (g.weight n).isSome)
    {order : List Nat → List Nat} (ho : ∀ l, (order l).Perm l) {out ren} (h : prune g nodes order = some (out, ren)) :
    out.edges.length = (ren.map fun p => (g.inEdges p.1).length).sum := by
  obtain ⟨out', ks, h1, _, _, _, _, _, h7⟩ := prune_ok hl hnodes ho
  rw [h1] at h
  cases h
  have hk : (ks.zipIdx.map fun p => (g.inEdges p.1).length) = ks.map fun n => (g.inEdges n).length := by
    have := List.map_map (l := ks.zipIdx) (g := fun n => (g.inEdges n).length) (f := Prod.fst)
    rw [List.zipIdx_map_fst] at this
    exact this.symm
  rw [h7, List.map_reverse, List.sum_reverse_nat, hk]

/-- A circuit with an unneeded branch: `0 → 1 (not) → 2 (output)`, and `3` (not) of `1`, which nobody needs. -/
def exPrune : FGraph :=
  ⟨[some (.input .glwe1 0), some .not, some (.output .glwe1 1), some .not], [(1, 3, .unary), (1, 2, .unary), (0, 1, .unary)]⟩

example : ∃ out ren, prune exPrune [2] id = some (out, ren) ∧ out.nodes = [some (.output .glwe1 1), some .not, some (.input .glwe1 0)] ∧
    ren = [(0, 2), (1, 1), (2, 0)] := ⟨_, _, rfl, rfl, rfl⟩
example : Live exPrune := by unfold Live; decide

/-! ### C15 -/

/-- **C15.** Converting between any two ciphertext kinds terminates (five nested calls suffice), never panics, and
yields a node that produces the requested kind: if the converted node carries a message of the source kind, the
resulting node carries the same bit in the requested kind, so every inserted operator accepted its operands. Converting
to the same kind inserts nothing, and existing nodes keep their operator, operands and value. -/
theorem C15_conversion {deg : Nat} (hdeg : 0 < deg) {g : FGraph} (hl : Live g) {cur : Nat} (hc : (g.weight cur).isSome) (inT outT : CtType) :
    ∃ g' idx, convert 5 g cur inT outT = some (g', idx) ∧ Live g' ∧
      (inT = outT → g' = g ∧ idx = cur) ∧
      (inT ≠ outT → ∃ op, g'.weight idx = some op ∧ opType op = some outT) ∧
      (∀ cells v, FEval deg cells g cur v → v.type = inT → ∃ v', FEval deg cells g' idx v' ∧ v'.type = outT ∧ v'.bit = v.bit ∧
        (inT ≠ outT → v' = ctOf outT v.bit)) ∧
      (∀ n op, g.weight n = some op → g'.weight n = some op ∧ g'.inEdges n = g.inEdges n ∧
        ∀ cells v, FEval deg cells g' n v ↔ FEval deg cells g n v) := by
  obtain ⟨g', idx, h1, h2⟩ := convert_ok hdeg 5 g cur inT outT hl hc (by cases inT <;> cases outT <;> decide)
  refine ⟨g', idx, h1, h2.live, h2.same, h2.kind, h2.value, ?_⟩
  intro n op hop
  exact ⟨(h2.ext n op hop).1, (h2.ext n op hop).2, fun cells v => h2.ext.eval_iff hl (by rw [hop]; rfl)⟩

example : ∃ g' idx, convert 5 exF 0 .ggsw1 .lwe0 = some (g', idx) ∧
    g'.nodes = exF.nodes ++ [some .multiplyGgswGlwe, some .oneGlwe1, some (.sampleExtract 0), some .keyswitchL1toL0] ∧ idx = 5 :=
  ⟨_, _, rfl, rfl, rfl⟩

end Spf.Props
