import Verif.Proof.FluentMulInt
import Verif.Proof.BddLib
import Verif.Proof.Prune
import Verif.Props.FluentProg
/-! C10 (multiplication on circuits) and C72 (handles while a circuit is built). -/
namespace Spf.Props
open Spf.Spec Spf.Fhe Spf.Fluent Spf.Mul Graph

/-! ### C10 on circuits -/

/-- **C10 (circuits).** Appending an unsigned multiplication of operands whose widths can be multiplied (`MulWidths`: see
`C10_circuit_widths`) to any circuit succeeds, keeps every existing node and its value, and yields a low part as wide as `a`
and a high part as wide as `b`; whenever the operand nodes encrypt bits, these nodes encrypt bits whose value is the exact
product. In Glev mode this holds up to 16 bits (see `C10_glev_violated`). -/
theorem C10_circuit_unsigned_partial {lib : CircLib} (hlib : CircLibOk lib) {deg : Nat} (hdeg : 0 < deg) {mode : MuxMode} {a b : List Nat} {g : FGraph}
    (hw : MulWidths a.length b.length) (hm : mode = .glwe ∨ a.length ≤ 16 ∧ b.length ≤ 16) (hl : Live g) (ha : AreNodes g .ggsw1 a)
    (hb : AreNodes g .ggsw1 b) :
    ∃ g' lo hi, appendMultiply lib .unsigned mode a b g = some (g', lo, hi) ∧ Live g' ∧ Extends g g' ∧ AreNodes g' (modeType mode) (lo ++ hi) ∧
      lo.length = a.length ∧ hi.length = b.length ∧
      ∀ cells va vb, Holds deg cells g .ggsw1 a va → Holds deg cells g .ggsw1 b vb →
        ∃ vl vh, Holds deg cells g' (modeType mode) lo vl ∧ Holds deg cells g' (modeType mode) hi vh ∧
          valLE (vl ++ vh) = valLE va * valLE vb := by
  obtain ⟨g', lo, hi, h1, h2, h3, h4, h5, h6⟩ := appendUint_ok (io := fun _ _ => True) hlib hdeg hw hm hl ha hb
  refine ⟨g', lo, hi, h1, h2.live, extends_of h2.ext hl, h3, h4, h5, ?_⟩
  intro cells va vb hva hvb
  obtain ⟨vl, vh, a1, a2, a3⟩ := h6 cells va vb hva hvb
  exact ⟨vl, vh, a1, a2, by exact_mod_cast (show ((valLE (vl ++ vh) : Nat) : Int) = (valLE va : Int) * valLE vb from a3)⟩

/-- **C10 (circuits, signed).** The same for signed operands, in both modes: the two halves together are the exact two's
complement product. -/
theorem C10_circuit_signed_partial {lib : CircLib} (hlib : CircLibOk lib) {deg : Nat} (hdeg : 0 < deg) {mode : MuxMode} {a b : List Nat} {g : FGraph}
    (hw : MulWidths a.length b.length) (hl : Live g) (ha : AreNodes g .ggsw1 a) (hb : AreNodes g .ggsw1 b) :
    ∃ g' lo hi, appendMultiply lib .signed mode a b g = some (g', lo, hi) ∧ Live g' ∧ Extends g g' ∧ AreNodes g' (modeType mode) (lo ++ hi) ∧
      lo.length = a.length ∧ hi.length = b.length ∧
      ∀ cells va vb, Holds deg cells g .ggsw1 a va → Holds deg cells g .ggsw1 b vb →
        ∃ vl vh, Holds deg cells g' (modeType mode) lo vl ∧ Holds deg cells g' (modeType mode) hi vh ∧
          valSigned (vl ++ vh) = valSigned va * valSigned vb := by
  obtain ⟨g', lo, hi, h1, h2, h3, h4, h5, h6⟩ := appendInt_ok (io := fun _ _ => True) hlib hdeg (mode := mode) hw hl ha hb
  exact ⟨g', lo, hi, h1, h2.live, extends_of h2.ext hl, h3, h4, h5, h6⟩

/-- **C10 (widths).** The widths that can be multiplied include all pairs of widths up to 16, all pairs between 17 and 32,
and two equal widths `c·2^j` with `c ≤ 16` (up to the capacity of the decision-diagram library). -/
theorem C10_circuit_widths :
    (∀ n m, 1 ≤ n → n ≤ 32 → 1 ≤ m → m ≤ 32 → (n ≤ 16 ↔ m ≤ 16) → MulWidths n m) ∧
    (∀ c j, 1 ≤ c → c ≤ 16 → 4 * (c * 2 ^ j) < maxVars → MulWidths (c * 2 ^ j) (c * 2 ^ j)) :=
  ⟨fun _ _ h1 h2 h3 h4 h => mulWidths_32 h1 h2 h3 h4 h, fun c j h1 h2 h3 => mulWidths_pow c j h1 h2 h3⟩

/-! ### pruning keeps the circuit live -/

theorem copyIn_live {ren : List (Nat × Nat)} : ∀ (es : List (Nat × Nat × FheEdge)) (out out' : FGraph), Live out → copyIn ren es out = some out' → Live out'
  | [], out, out', hl, h => by cases h; exact hl
  | e :: es, out, out', hl, h => by
    simp only [copyIn] at h
    cases h1 : ren.lookup e.1 with
    | none => rw [h1] at h; cases h
    | some s =>
      cases h2 : ren.lookup e.2.1 with
      | none => rw [h1, h2] at h; cases h
      | some t =>
        rw [h1, h2] at h
        simp only at h
        cases h3 : out.addEdge s t e.2.2 with
        | none => rw [h3] at h; cases h
        | some o =>
          rw [h3] at h
          refine copyIn_live es o out' ?_ h
          unfold addEdge at h3
          by_cases hc : (out.weight s).isSome ∧ (out.weight t).isSome
          · rw [if_pos hc] at h3
            cases h3
            intro x hx
            rcases List.mem_cons.1 hx with rfl | hx
            · exact hc
            · exact hl x hx
          · rw [if_neg hc] at h3; cases h3

theorem copyAllIn_live {g : FGraph} {ren : List (Nat × Nat)} : ∀ (ns : List Nat) (out out' : FGraph), Live out → copyAllIn g ren ns out = some out' → Live out'
  | [], out, out', hl, h => by cases h; exact hl
  | n :: ns, out, out', hl, h => by
    simp only [copyAllIn] at h
    cases h1 : copyIn ren (g.inEdges n) out with
    | none => rw [h1] at h; cases h
    | some o => rw [h1] at h; exact copyAllIn_live ns o out' (copyIn_live _ _ _ hl h1) h

theorem copyOnce_edges {g : FGraph} {push : Bool} {n : Nat} {st st' : PState FheOp FheEdge} (he : st.out.edges = [])
    (h : copyOnce g push n st = some st') : st'.out.edges = [] := by
  unfold copyOnce at h
  cases h1 : st.rename.lookup n with
  | some m => rw [h1] at h; cases h; exact he
  | none =>
    rw [h1] at h
    cases h2 : g.weight n with
    | none => rw [h2] at h; cases h
    | some w => rw [h2] at h; cases h; exact he

theorem copyPreds_edges {g : FGraph} : ∀ (ns : List Nat) (st st' : PState FheOp FheEdge), st.out.edges = [] → copyPreds g ns st = some st' → st'.out.edges = []
  | [], st, st', he, h => by cases h; exact he
  | n :: ns, st, st', he, h => by
    simp only [copyPreds] at h
    cases h1 : copyOnce g true n st with
    | none => rw [h1] at h; cases h
    | some s => rw [h1] at h; exact copyPreds_edges ns s st' (copyOnce_edges he h1) h

theorem pruneLoop_edges {g : FGraph} : ∀ (fuel : Nat) (st st' : PState FheOp FheEdge), st.out.edges = [] → pruneLoop g fuel st = some st' → st'.out.edges = []
  | 0, st, st', he, h => by
    simp only [pruneLoop] at h
    split at h
    · cases h; exact he
    · cases h
  | fuel + 1, st, st', he, h => by
    simp only [pruneLoop] at h
    cases hq : st.queue with
    | nil => rw [hq] at h; cases h; exact he
    | cons cur rest =>
      rw [hq] at h
      simp only at h
      cases h1 : copyOnce g false cur { st with queue := rest } with
      | none => rw [h1] at h; cases h
      | some s =>
        rw [h1] at h
        simp only at h
        cases h2 : copyPreds g (g.preds cur) s with
        | none => rw [h2] at h; cases h
        | some s2 => rw [h2] at h; exact pruneLoop_edges fuel s2 st' (copyPreds_edges _ _ _ (copyOnce_edges (st := { st with queue := rest }) he h1) h2) h

theorem prune_live {g : FGraph} {nodes : List Nat} {order : List Nat → List Nat} {out : FGraph} {ren} (h : prune g nodes order = some (out, ren)) :
    Live out := by
  unfold prune at h
  cases h1 : pruneLoop g (nodes.length + g.nodes.length) ⟨Graph.empty, nodes, []⟩ with
  | none => rw [h1] at h; cases h
  | some st =>
    rw [h1] at h
    simp only at h
    cases h2 : copyAllIn g st.rename (order (st.rename.map (·.1))) st.out with
    | none => rw [h2] at h; cases h
    | some o =>
      rw [h2] at h
      cases h
      refine copyAllIn_live _ _ _ ?_ h2
      have := pruneLoop_edges _ _ _ rfl h1
      intro e he
      rw [this] at he; cases he

theorem renameAll_ok {ren : List (Nat × Nat)} : ∀ (ns : List Nat), (∀ n ∈ ns, (ren.lookup n).isSome) →
    ∃ ms, renameAll ren ns = some ms ∧ List.Forall₂ (fun n m => ren.lookup n = some m) ns ms
  | [], _ => ⟨[], rfl, .nil⟩
  | n :: ns, h => by
    obtain ⟨m, hm⟩ := Option.isSome_iff_exists.1 (h n (by simp))
    obtain ⟨ms, h1, h2⟩ := renameAll_ok ns fun k hk => h k (by simp [hk])
    exact ⟨m :: ms, by simp only [renameAll, hm, h1], .cons hm h2⟩

/-- pruning keeps a circuit whose edges come from typed operators, whose operators are admissible and which runs -/
theorem prune_good {deg : Nat} {io : FheOp → Prop} {g : FGraph} (hl : Live g) (hg : Good deg (fun _ => io) g) {nodes : List Nat}
    (hnodes : ∀ n ∈ nodes, (g.weight n).isSome) {order : List Nat → List Nat} (ho : ∀ l, (order l).Perm l) {out ren}
    (h : prune g nodes order = some (out, ren)) : Good deg (fun _ => io) out := by
  obtain ⟨out', ks, h1, h2, h3, h4, h5, h6, _⟩ := prune_ok hl hnodes ho
  rw [h1] at h
  cases h
  obtain ⟨out'', ren', q1, q2, q3, q4, q5, q6⟩ := C14_prune hl hnodes ho
  rw [h1] at q1
  cases q1
  have hlo := prune_live h1
  have hwt : ∀ n ∈ ks, out.weight (ks.idxOf n) = g.weight n := by
    intro n hn
    unfold Graph.weight
    rw [h4]
    have := List.idxOf_lt_length_iff.2 hn
    simp [List.getD, List.getElem?_eq_getElem this, Graph.weight]
  have him : ∀ m, (out.weight m).isSome → ∃ n, (ks.zipIdx.reverse).lookup n = some m := by
    intro m hm
    obtain ⟨op, hop⟩ := Option.isSome_iff_exists.1 hm
    exact (q4 m).1 (lt_of_weight hop)
  refine ⟨hg.internal, fun e he => ?_, fun cells hc m hm => ?_, fun m op hm => ?_⟩
  · obtain ⟨op, hop⟩ := Option.isSome_iff_exists.1 (hlo e he).2
    have hlt : e.2.1 < ks.length := by
      have := lt_of_weight hop
      rw [h4, List.length_map] at this
      exact this
    have hin : e ∈ out.inEdges (ks.idxOf ks[e.2.1]) := by
      rw [h2.idxOf_getElem _ hlt]
      exact mem_in.2 ⟨he, rfl⟩
    have hk := List.getElem_mem hlt
    rw [h6 _ hk, List.mem_reverse] at hin
    obtain ⟨e', e1, e2⟩ := List.mem_map.1 hin
    obtain ⟨op', t, w1, w2⟩ := hg.edge e' (mem_in.1 e1).1
    have hsrc : e'.1 ∈ ks := by
      obtain ⟨r, r1, r2⟩ := (h3 _).1 hk
      refine (h3 _).2 ⟨r, r1, ?_⟩
      obtain ⟨e3, e4⟩ := mem_in.1 e1
      rw [← e4] at r2
      exact .step (k := e'.2.2) e3 r2
    refine ⟨op', t, ?_, w2⟩
    rw [← w1, ← hwt _ hsrc, ← e2]
    rfl
  · obtain ⟨n, hn⟩ := him m hm
    obtain ⟨v, hv⟩ := hg.runs cells hc n (by rw [← q5 n m hn]; exact hm)
    exact ⟨v, (q6 deg cells n m hn v).2 hv⟩
  · obtain ⟨n, hn⟩ := him m (by rw [hm]; rfl)
    rw [q5 n m hn] at hm
    exact hg.ops n op hm

/-! ### C72: multiplication of integers -/

/-- What multiplying two integers achieves. -/
theorem mul_ok {lib : CircLib} (hlib : CircLibOk lib) {deg : Nat} (hdeg : 0 < deg) (io : FheOp → Prop) {sign : Sign} {mode : MuxMode} {a b : List Nat} {ctx : Ctx}
    {order : List Nat → List Nat} (ho : ∀ l, (order l).Perm l)
    (hw : MulWidths a.length b.length) (hm : sign = .signed ∨ mode = .glwe ∨ a.length ≤ 16 ∧ b.length ≤ 16) (hl : Live ctx.circuit)
    (ha : AreNodes ctx.circuit .ggsw1 a) (hb : AreNodes ctx.circuit .ggsw1 b) :
    ∃ ctx' lo, mul lib sign mode order a b ctx = some (ctx', lo) ∧ Live ctx'.circuit ∧ AreNodes ctx'.circuit (modeType mode) lo ∧
      lo.length = a.length ∧
      (∀ cells va vb, Holds deg cells ctx.circuit .ggsw1 a va → Holds deg cells ctx.circuit .ggsw1 b vb →
        ∃ out, Holds deg cells ctx'.circuit (modeType mode) lo out ∧
          intVal sign out = wrap sign a.length (intVal sign va * intVal sign vb)) ∧
      (∀ n t c, ctx.circuit.weight n = some (.output t c) → (∀ e ∈ ctx.circuit.edges, e.1 ≠ n) →
        ∃ n', ctx'.circuit.weight n' = some (.output t c) ∧
          ∀ cells v, FEval deg cells ctx'.circuit n' v ↔ FEval deg cells ctx.circuit n v) ∧
      ctx'.oneCache = ctx.oneCache ∧ ctx'.zeroCache = ctx.zeroCache ∧
      (Good deg (fun _ => io) ctx.circuit → Good deg (fun _ => io) ctx'.circuit ∧
        ∃ f : Nat → Nat, (∀ m m', (ctx'.circuit.weight m).isSome → (ctx'.circuit.weight m').isSome → f m = f m' → m = m') ∧
          ∀ m t c, ctx'.circuit.weight m = some (.output t c) → ctx.circuit.weight (f m) = some (.output t c)) := by
  have hfull : FullDone lib deg (fun _ => io) sign mode a b ctx.circuit := by
    cases sign with
    | unsigned => exact appendUint_ok (io := fun _ => io) hlib hdeg hw (by simpa using hm) hl ha hb
    | signed => exact appendInt_ok (io := fun _ => io) hlib hdeg hw hl ha hb
  obtain ⟨g, lo, hi, h1, h2, h3, h4, h5, h6⟩ := hfull
  have hex : ∀ n ∈ ctx.circuit.indices.filter (isSinkOutput ctx.circuit), (ctx.circuit.weight n).isSome := by
    intro n hn
    have := (List.mem_filter.1 hn).1
    unfold indices at this
    exact (List.mem_filter.1 this).2
  have hlo : AreNodes g (modeType mode) lo := AreNodes.sub h3 fun n hn => by simp [hn]
  have hroots : ∀ n ∈ lo ++ ctx.circuit.indices.filter (isSinkOutput ctx.circuit), (g.weight n).isSome := by
    intro n hn
    rcases List.mem_append.1 hn with h | h
    · exact AreNodes.live hlo h
    · obtain ⟨op, hop⟩ := Option.isSome_iff_exists.1 (hex n h)
      rw [(h2.ext _ _ hop).1]; rfl
  obtain ⟨out, ren, p1, p2, p3, p4, p5, p6⟩ := C14_prune h2.live hroots ho
  obtain ⟨ms, r1, r2⟩ := renameAll_ok (ren := ren) lo fun n hn => (p2 n).2 ⟨n, by simp [hn], .refl⟩
  refine ⟨{ ctx with circuit := out }, ms, ?_, prune_live p1, ?_, by rw [← r2.length_eq]; exact h4, ?_, ?_, rfl, rfl, fun hg => ?_⟩
  · unfold mul
    simp only [h1, p1, r1]
  · intro m hm
    obtain ⟨i, hi⟩ := List.getElem?_of_mem hm
    obtain ⟨hi', rfl⟩ := List.getElem?_eq_some_iff.1 hi
    have := (List.forall₂_iff_get.1 r2).2 i (by rw [r2.length_eq]; exact hi') hi'
    simp only [List.get_eq_getElem] at this
    obtain ⟨op, o1, o2⟩ := hlo _ (List.getElem_mem (l := lo) (n := i) (by rw [r2.length_eq]; exact hi'))
    exact ⟨op, by rw [p5 _ _ this]; exact o1, o2⟩
  · intro cells va vb hva hvb
    obtain ⟨vl, vh, v1, v2, v3⟩ := h6 cells va vb hva hvb
    refine ⟨vl, ?_, ?_⟩
    · have : ∀ (ns ms : List Nat) (vs : List Bool), List.Forall₂ (fun n m => ren.lookup n = some m) ns ms → Holds deg cells g (modeType mode) ns vs →
          Holds deg cells out (modeType mode) ms vs := by
        intro ns ms vs hr hv
        induction hr generalizing vs with
        | nil => cases hv; exact .nil
        | cons hx _ ih =>
          cases hv with
          | cons hy hys => exact .cons ((p6 deg cells _ _ hx _).2 hy) (ih _ hys)
      exact this _ _ _ r2 v1
    · have hvl : vl.length = a.length := by rw [← v1.length_eq, h4]
      rw [← hvl]
      apply intVal_of_mod
      have e := intVal_mod sign (vl ++ vh) (w := vl.length) (by simp)
      rw [v3] at e
      rw [e]
      have := take_val (vl ++ vh) vl.length
      rw [List.take_left] at this
      rw [this]; push_cast
      exact Int.emod_emod_of_dvd _ (dvd_refl _)
  · intro n t c hn hno
    have hmem : n ∈ ctx.circuit.indices.filter (isSinkOutput ctx.circuit) := by
      rw [List.mem_filter]
      constructor
      · unfold indices
        rw [List.mem_filter]
        refine ⟨List.mem_range.2 (lt_of_weight hn), by rw [hn]; rfl⟩
      · unfold isSinkOutput
        rw [hn]
        simp only [List.isEmpty_iff]
        unfold succs
        rw [List.map_eq_nil_iff]
        unfold outEdges
        rw [List.filter_eq_nil_iff]
        intro e he
        have := hno e he
        simpa using this
    obtain ⟨m, hm⟩ := Option.isSome_iff_exists.1 ((p2 n).2 ⟨n, by simp only [List.mem_append]; exact Or.inr hmem, .refl⟩)
    refine ⟨m, ?_, ?_⟩
    · show out.weight m = _
      rw [p5 n m hm, (h2.ext _ _ hn).1]
    · intro cells v
      show FEval deg cells out m v ↔ _
      rw [p6 deg cells n m hm v]
      exact h2.ext.eval_iff hl (by rw [hn]; rfl)
  · have hg2 := h2.good hg
    have hx : ∀ m, (out.weight m).isSome → ∃ n, ren.lookup n = some m := by
      intro m hm
      obtain ⟨op, hop⟩ := Option.isSome_iff_exists.1 hm
      exact (p4 m).1 (lt_of_weight hop)
    classical
    refine ⟨prune_good h2.live hg2 hroots ho p1, fun m => if h : (out.weight m).isSome then Classical.choose (hx m h) else 0, ?_, ?_⟩
    · intro m m' hm hm' he
      simp only [dif_pos (show (out.weight m).isSome from hm), dif_pos (show (out.weight m').isSome from hm')] at he
      have e1 := Classical.choose_spec (hx m hm)
      rw [he, Classical.choose_spec (hx m' hm')] at e1
      exact (Option.some.inj e1).symm
    · intro m t c hm
      have hm' : (out.weight m).isSome := by rw [show out.weight m = _ from hm]; rfl
      simp only [dif_pos hm']
      have hn := Classical.choose_spec (hx m hm')
      generalize Classical.choose (hx m hm') = n at hn
      have hwn : g.weight n = some (.output t c) := by rw [← p5 n m hn]; exact hm
      obtain ⟨r, r1, r2⟩ := (p2 n).1 (by rw [hn]; rfl)
      have hnr : n = r := by
        cases r2 with
        | refl => rfl
        | step he _ =>
          obtain ⟨op, t', w1, w2⟩ := hg2.edge _ he
          rw [hwn] at w1
          cases w1
          simp [opType] at w2
      subst hnr
      rcases List.mem_append.1 r1 with h | h
      · obtain ⟨op, o1, o2⟩ := hlo n h
        rw [hwn] at o1
        cases o1
        simp [opType] at o2
      · obtain ⟨op, hop⟩ := Option.isSome_iff_exists.1 (hex n h)
        rw [(h2.ext _ _ hop).1] at hwn
        rw [hop, hwn]

/-- **C72/C10 (multiplying integers).** Multiplying two encrypted integers in a circuit context succeeds; the result is as
wide as the left operand, and encrypts the product of the operands wrapped to that width whenever the operands are
encryptions. The circuit is replaced by a pruned one, in which every output collected so far (an output node whose value
nobody reads) is still there, with the same operator and the same value. -/
theorem C72_mul_partial {lib : CircLib} (hlib : CircLibOk lib) {deg : Nat} (hdeg : 0 < deg) {sign : Sign} {mode : MuxMode} {a b : List Nat} {ctx : Ctx}
    {order : List Nat → List Nat} (ho : ∀ l, (order l).Perm l)
    (hw : MulWidths a.length b.length) (hm : sign = .signed ∨ mode = .glwe ∨ a.length ≤ 16 ∧ b.length ≤ 16) (hl : Live ctx.circuit)
    (ha : AreNodes ctx.circuit .ggsw1 a) (hb : AreNodes ctx.circuit .ggsw1 b) :
    ∃ ctx' lo, mul lib sign mode order a b ctx = some (ctx', lo) ∧ Live ctx'.circuit ∧ AreNodes ctx'.circuit (modeType mode) lo ∧
      lo.length = a.length ∧
      (∀ cells va vb, Holds deg cells ctx.circuit .ggsw1 a va → Holds deg cells ctx.circuit .ggsw1 b vb →
        ∃ out, Holds deg cells ctx'.circuit (modeType mode) lo out ∧
          intVal sign out = wrap sign a.length (intVal sign va * intVal sign vb)) ∧
      (∀ n t c, ctx.circuit.weight n = some (.output t c) → (∀ e ∈ ctx.circuit.edges, e.1 ≠ n) →
        ∃ n', ctx'.circuit.weight n' = some (.output t c) ∧
          ∀ cells v, FEval deg cells ctx'.circuit n' v ↔ FEval deg cells ctx.circuit n v) := by
  obtain ⟨ctx', lo, h1, h2, h3, h4, h5, h6, _⟩ := mul_ok hlib hdeg (fun _ => True) ho hw hm hl ha hb
  exact ⟨ctx', lo, h1, h2, h3, h4, h5, h6⟩

/-! ### the bitwise conjunction -/

/-- **C04 (integers).** The bitwise conjunction of two encrypted integers of the same width. -/
theorem C04_circuit_and {lib : CircLib} (hlib : CircLibOk lib) {g : FGraph} (hl : Live g) {a b : List Nat} (ha : AreNodes g .ggsw1 a)
    (hb : AreNodes g .ggsw1 b) (hab : a.length = b.length) (h0 : 0 < a.length) (hv : 2 * a.length < maxVars) (mode : MuxMode) :
    ∃ g' r, Fluent.and lib a b mode g = some (g', r) ∧ Live g' ∧ Extends g g' ∧ AreNodes g' (modeType mode) r ∧ r.length = a.length ∧
      ∀ deg cells va vb, Holds deg cells g .ggsw1 a va → Holds deg cells g .ggsw1 b vb →
        Holds deg cells g' (modeType mode) r (List.zipWith (· && ·) va vb) := by
  obtain ⟨g', r, h1, h2, h3, h4, h5⟩ := and_ok (d := 1) (io := fun _ _ => True) hlib hl ha hb hab h0 hv mode
  exact ⟨g', r, h1, h2.live, extends_of h2.ext hl, h3, h4, h5⟩

/-! ### C72 -/

/-- **C72 (all operations except multiplication).** Whatever operations are appended to a circuit context — any accepted
sequence of inputs, constants, conversions, additions, subtractions, comparisons, selections, resizings, packings and
unpackings — every node of the circuit keeps its operator, its operands and its value, so every handle obtained before
keeps denoting what it denoted. -/
theorem C72_partial {lib : BddLib} (hlib : BddLibOk lib) {deg : Nat} (hdeg : 0 < deg) (prog : List Instr) {ctx : Ctx} (hc : CtxOk ctx)
    {tys : List Ty} {hs : List Handle} (hh : List.Forall₂ (HandleOk ctx.circuit) tys hs) {tys' : List Ty} (hck : check deg prog tys = some tys') :
    ∃ ctx' hs', exec lib deg prog ctx hs = some (ctx', hs') ∧ Extends ctx.circuit ctx'.circuit ∧ CtxOk ctx' := by
  obtain ⟨ctx', hs', h1, h2, h3, _⟩ := exec_ok (io := fun _ _ => True) hlib hdeg prog ctx tys hs hc hh hck (fun _ _ _ _ _ => trivial)
  exact ⟨ctx', hs', h1, extends_of h3.ext hc.live, h2⟩

/-- a context holding the constant one (node 0, cached) and two encrypted bits (nodes 1 and 2) -/
def exMul : Ctx := ⟨⟨[some .oneGgsw1, some (.input .ggsw1 0), some (.input .ggsw1 1)], []⟩, [none, none, none, some 0], [none, none, none, none]⟩

theorem exMul_reached : ∃ c, one .ggsw1 Ctx.new = some (c, 0) ∧ exMul = { c with circuit := (graphInputs .ggsw1 [0, 1] c.circuit).1 } ∧
    (graphInputs .ggsw1 [0, 1] c.circuit).2 = [1, 2] := ⟨_, rfl, rfl, rfl⟩

theorem exMul_ok : CtxOk exMul := by
  refine ⟨(by intro e he; cases he), rfl, rfl, ?_, ?_⟩
  · intro t n h
    cases t <;> simp only [exMul, typeIndex, List.getElem?_cons_zero, List.getElem?_cons_succ, List.getElem?_nil, Option.some.injEq,
      reduceCtorEq] at h
    subst h
    refine ⟨by intro n hn; simp only [List.mem_singleton] at hn; subst hn; exact ⟨.oneGgsw1, rfl, rfl⟩, ?_⟩
    intro deg cells
    exact .op (fun _ => .ggsw1 true) (op := .oneGgsw1) rfl (by intro e he; cases he) rfl
  · intro t n h
    cases t <;> simp [exMul, typeIndex] at h

deriving instance DecidableEq for FheOp

/-- what an operator produces is of its kind -/
theorem exec_type {deg cells op ins v t} (ht : opType op = some t) (hc : ∀ t c, (cells t c).type = t) (h : execOp deg cells op ins = some v) :
    v.type = t := by
  unfold execOp at h
  split at h <;> simp only [opType, Option.some.injEq] at ht <;> (try subst ht) <;> (try cases h) <;> (try rfl) <;> (try exact hc _ _)
  all_goals (repeat' (split at h)) <;> cases h <;> first | rfl | cases ht

/-- the circuit before pruning: the 1×1 product -/
theorem exMul_app : ∃ r, (insertLib (circuitOf shannonLib) (1 + 1) (multiplierImpl 1 1) [1, 2] .glwe exMul.circuit) = some r ∧
    (prune r.1 (r.2.take 1) id).map (fun p => (p.1.nodes, p.1.edges, (renameAll p.2 (r.2.take 1)).getD [])) =
      some ([some .cmux, some .cmux, some .zeroGlwe1, some (.input .ggsw1 0), some .oneGlwe1, some (.input .ggsw1 1)],
        [(3, 0, .sel), (2, 0, .low), (1, 0, .high), (5, 1, .sel), (2, 1, .low), (4, 1, .high)], [0]) := by
  have h : ((insertLib (circuitOf shannonLib) (1 + 1) (multiplierImpl 1 1) [1, 2] .glwe exMul.circuit).bind fun r =>
    (prune r.1 (r.2.take 1) id).map (fun p => (p.1.nodes, p.1.edges, (renameAll p.2 (r.2.take 1)).getD []))) =
      some ([some .cmux, some .cmux, some .zeroGlwe1, some (.input .ggsw1 0), some .oneGlwe1, some (.input .ggsw1 1)],
        [(3, 0, .sel), (2, 0, .low), (1, 0, .high), (5, 1, .sel), (2, 1, .low), (4, 1, .high)], [0]) := by
    decide +kernel
  cases hr : insertLib (circuitOf shannonLib) (1 + 1) (multiplierImpl 1 1) [1, 2] .glwe exMul.circuit with
  | none => rw [hr] at h; cases h
  | some r => rw [hr] at h; exact ⟨r, rfl, h⟩

theorem mulNodes_11 (lib : CircLib) (g : FGraph) : mulNodes lib .glwe [1] [2] g = insertLib lib (1 + 1) (multiplierImpl 1 1) [1, 2] .glwe g := by
  rw [mulNodes]
  rfl

/-- the circuit of `exMul` after multiplying the two bits -/
def exPruned : FGraph := ⟨[some .cmux, some .cmux, some .zeroGlwe1, some (.input .ggsw1 0), some .oneGlwe1, some (.input .ggsw1 1)],
  [(3, 0, .sel), (2, 0, .low), (1, 0, .high), (5, 1, .sel), (2, 1, .low), (4, 1, .high)]⟩

theorem exMul_mul : mul (circuitOf shannonLib) .unsigned .glwe id [1] [2] exMul = some ({ exMul with circuit := exPruned }, [0]) := by
  obtain ⟨⟨g, r⟩, h1, h2⟩ := exMul_app
  simp only at h2
  cases hp : prune g (r.take 1) id with
  | none => rw [hp] at h2; cases h2
  | some p =>
    obtain ⟨⟨pn, pe⟩, ren⟩ := p
    rw [hp] at h2
    simp only [Option.map_some, Option.some.injEq, Prod.mk.injEq] at h2
    obtain ⟨rfl, rfl, e3⟩ := h2
    have e3 : renameAll ren (r.take 1) = some [0] := by
      cases hq : renameAll ren (r.take 1) with
      | none => rw [hq] at e3; cases e3
      | some q => rw [hq] at e3; simp only [Option.getD_some] at e3; rw [e3]
    have hlen : 1 ≤ r.length := by
      rcases r with _ | ⟨x, r⟩
      · simp [renameAll] at e3
      · simp
    have hex : exMul.circuit.indices.filter (isSinkOutput exMul.circuit) = [] := by decide +kernel
    unfold mul
    simp only [hex, appendMultiply, appendUint, mulNodes_11, h1, List.length_cons, List.length_nil, if_pos hlen, List.append_nil, hp, e3]
    rfl

/-- **C72 violated.** Multiplication renumbers the circuit. Here a context holds the constant one (handle 0) and two
encrypted bits (handles 1 and 2). After multiplying the two bits, asking the context for the constant one still returns
handle 0, which now denotes the product: it has no value as a GGSW ciphertext at all, let alone that of the constant one.
And handle 1, the first operand, now denotes another node too. -/
theorem C72_violated : CtxOk exMul ∧ BddLibOk shannonLib ∧
    one .ggsw1 exMul = some (exMul, 0) ∧ (∀ deg cells, FEval deg cells exMul.circuit 0 (.ggsw1 true)) ∧
    ∃ ctx', mul (circuitOf shannonLib) .unsigned .glwe id [1] [2] exMul = some (ctx', [0]) ∧
      one .ggsw1 ctx' = some (ctx', 0) ∧ (∀ deg cells b, ¬ FEval deg cells ctx'.circuit 0 (.ggsw1 b)) ∧
      (∀ deg cells b, ¬ FEval deg cells ctx'.circuit 1 (.ggsw1 b)) ∧ ¬ CtxOk ctx' := by
  have key : ∀ n, exPruned.weight n = some .cmux → ∀ deg cells b, ¬ FEval deg cells exPruned n (.ggsw1 b) := by
    intro n hn deg cells b h
    cases h with
    | @op _ op _ f hw _ hx =>
      rw [hn] at hw
      cases hw
      unfold execOp at hx
      split at hx
      all_goals first
        | contradiction
        | cases hx
        | (repeat' (split at hx)) <;> cases hx
  refine ⟨exMul_ok, bddLibOk_shannon, rfl, ?_, _, exMul_mul, rfl, key 0 rfl, key 1 rfl, ?_⟩
  · intro deg cells
    exact (exMul_ok.ones .ggsw1 0 rfl).2 deg cells
  · intro h
    exact key 0 rfl 1 (fun t _ => ctOf t true) true ((h.ones .ggsw1 0 rfl).2 1 _)

/-! ### C10 in Glev mode -/

/-- converting from GLWE to GGSW starts with a sample extraction of the given node -/
theorem convert_first {deg : Nat} (hdeg : 0 < deg) {g : FGraph} {q : Nat} (hl : Live g) (hq : (g.weight q).isSome) :
    ∃ g' m, Fhe.convert 5 g q .glwe1 .ggsw1 = some (g', m) ∧ Grow g g' ∧ AreNodes g' .ggsw1 [m] ∧
      g'.weight g.nodes.length = some (.sampleExtract 0) ∧ g'.inEdges g.nodes.length = [(q, g.nodes.length, .unary)] := by
  have he := addEdge_ext1 (op := .sampleExtract 0) (es := []) (k := FheEdge.unary) hq
  have hs : Grow g (ext1 g (.sampleExtract 0) [(q, .unary)]) := ⟨ext1_live hl (by simpa using hq), ext1_ext _ _ _⟩
  have hw := ext1_weight g (.sampleExtract 0) [(q, .unary)]
  obtain ⟨g', m, h1, c1⟩ := convert_ok hdeg 4 (ext1 g (.sampleExtract 0) [(q, .unary)]) g.nodes.length .lwe1 .ggsw1 hs.live (by rw [hw]; rfl) (by decide)
  have hin : (ext1 g (.sampleExtract 0) [(q, .unary)]).inEdges g.nodes.length = [(q, g.nodes.length, .unary)] := by
    have := extF_in_new hl (ops := [FheOp.sampleExtract 0]) (es := [(q, g.nodes.length, FheEdge.unary)]) (i := 0)
    rw [Nat.add_zero] at this
    unfold ext1
    rw [List.map_cons, List.map_nil, this]
    simp
  refine ⟨g', m, ?_, hs.trans ⟨c1.live, c1.ext⟩, ?_, (c1.ext _ _ hw).1, by rw [(c1.ext _ _ hw).2, hin]⟩
  · unfold Fhe.convert
    rw [if_neg (by decide)]
    simp only [addNode_ext1, he]
    exact h1
  · obtain ⟨op, b1, b2⟩ := c1.kind (by decide)
    exact AreNodes.cons.2 ⟨⟨op, b1, b2⟩, by intro n hn; cases hn⟩

theorem convertAll_live {deg : Nat} (hdeg : 0 < deg) : ∀ (ns : List Nat) (g : FGraph), Live g → (∀ n ∈ ns, (g.weight n).isSome) →
    ∃ g' ms, convertAll .glwe1 .ggsw1 ns g = some (g', ms) ∧ Grow g g' ∧ AreNodes g' .ggsw1 ms ∧ ms.length = ns.length
  | [], g, hl, _ => ⟨g, [], rfl, Grow.refl hl, (by intro n hn; cases hn), rfl⟩
  | n :: ns, g, hl, hn => by
    obtain ⟨g1, m, h1, s1, n1, _⟩ := convert_first hdeg hl (hn n (by simp))
    obtain ⟨g2, ms, h2, s2, n2, l2⟩ := convertAll_live hdeg ns g1 s1.live (fun k hk => by
      obtain ⟨op, hop⟩ := Option.isSome_iff_exists.1 (hn k (by simp [hk]))
      rw [(s1.ext _ _ hop).1]; rfl)
    exact ⟨g2, m :: ms, by simp only [convertAll, h1, h2], s1.trans s2, AreNodes.cons.2 ⟨(AreNodes.cons.1 (nodes_ext s2.ext n1)).1, n2⟩, by simp [l2]⟩

theorem no_value {g : FGraph} {q n : Nat} (hq : AreNodes g .glev1 [q]) (hw : g.weight n = some (.sampleExtract 0)) (hin : g.inEdges n = [(q, n, .unary)])
    {deg : Nat} {cells : CtType → Nat → Val} (hc : ∀ t c, (cells t c).type = t) (v : Val) : ¬ FEval deg cells g n v := by
  intro h
  cases h with
  | @op _ op _ f hw' hop hx =>
    rw [hw] at hw'
    cases hw'
    rw [hin] at hop hx
    have h1 := hop (q, n, .unary) (by simp)
    have ht : (f q).type = .glev1 := by
      cases h1 with
      | @op _ op' _ f' hw1 _ hx1 =>
        obtain ⟨op2, o1, o2⟩ := hq q (by simp)
        rw [o1] at hw1
        cases hw1
        exact exec_type o2 hc hx1
    simp only [List.map_cons, List.map_nil] at hx
    cases hf : f q with
    | glev1 b => rw [hf] at hx; cases hx
    | lwe0 b => rw [hf] at ht; cases ht
    | lwe1 b => rw [hf] at ht; cases ht
    | glwe1 p => rw [hf] at ht; cases ht
    | ggsw1 b => rw [hf] at ht; cases ht

theorem C10_glev_ordered {lib : CircLib} (hlib : CircLibOk lib) {a b : List Nat} {g : FGraph} (h1 : 17 ≤ b.length)
    (h2 : a.length ≤ 32) (hab : b.length ≤ a.length) (hl : Live g) (ha : AreNodes g .ggsw1 a) (hb : AreNodes g .ggsw1 b) :
    ∃ g' r n, mulNodes lib .glev a b g = some (g', r) ∧ r.length = a.length + b.length ∧ AreNodes g' .glev1 r ∧ g'.weight n = some (.sampleExtract 0) ∧
      ∀ deg cells v, (∀ t c, (cells t c).type = t) → ¬ FEval deg cells g' n v := by
  have hln : longerN a b = a := by unfold longerN; rw [if_neg (by omega)]
  have hsn : shorterN a b = b := by unfold shorterN; rw [if_neg (by omega)]
  have pa := partition_big a.length (by simp only [circuitCutoff]; omega)
  have pb := partition_big b.length (by simp only [circuitCutoff]; omega)
  obtain ⟨m1, m2⟩ := partition_mono a.length b.length (by simp only [circuitCutoff]; omega) hab
  have tk : ∀ {g : FGraph} {x : List Nat} (_ : AreNodes g .ggsw1 x) k, AreNodes g .ggsw1 (x.take k) := fun h k =>
    AreNodes.sub h fun _ hn => List.mem_of_mem_take hn
  have dr : ∀ {g : FGraph} {x : List Nat} (_ : AreNodes g .ggsw1 x) k, AreNodes g .ggsw1 (x.drop k) := fun h k =>
    AreNodes.sub h fun _ hn => List.mem_of_mem_drop hn
  have sub : ∀ (a b : List Nat) (g : FGraph), 1 ≤ a.length → a.length ≤ 16 → 1 ≤ b.length → b.length ≤ 16 → Live g → AreNodes g .ggsw1 a →
      AreNodes g .ggsw1 b → MulDone lib 1 (fun _ _ => True) .glev a b g := fun a b g q1 q2 q3 q4 hl ha hb =>
    mulNodes_ok hlib (by decide) (.base q1 q2 q3 q4) .glev a b g (Or.inr ⟨q2, q4⟩) rfl rfl hl ha hb
  obtain ⟨g1, p00, a1, s1, n1, l1, _⟩ := sub (a.take ((a.length + 1) / 2)) (b.take ((b.length + 1) / 2)) g
    (by rw [List.length_take]; omega) (by rw [List.length_take]; omega) (by rw [List.length_take]; omega) (by rw [List.length_take]; omega)
    hl (tk ha _) (tk hb _)
  obtain ⟨g2, p01, a2, s2, n2, l2, _⟩ := sub (a.take ((a.length + 1) / 2)) (b.drop ((b.length + 1) / 2)) g1
    (by rw [List.length_take]; omega) (by rw [List.length_take]; omega) (by rw [List.length_drop]; omega) (by rw [List.length_drop]; omega)
    s1.live (nodes_ext s1.ext (tk ha _)) (nodes_ext s1.ext (dr hb _))
  have s12 := s1.trans s2
  obtain ⟨g3, p10, a3, s3, n3, l3, _⟩ := sub (a.drop ((a.length + 1) / 2)) (b.take ((b.length + 1) / 2)) g2
    (by rw [List.length_drop]; omega) (by rw [List.length_drop]; omega) (by rw [List.length_take]; omega) (by rw [List.length_take]; omega)
    s2.live (nodes_ext s12.ext (dr ha _)) (nodes_ext s12.ext (tk hb _))
  have s13 := s12.trans s3
  obtain ⟨g4, p11, a4, s4, n4, l4, _⟩ := sub (a.drop ((a.length + 1) / 2)) (b.drop ((b.length + 1) / 2)) g3
    (by rw [List.length_drop]; omega) (by rw [List.length_drop]; omega) (by rw [List.length_drop]; omega) (by rw [List.length_drop]; omega)
    s3.live (nodes_ext s13.ext (dr ha _)) (nodes_ext s13.ext (dr hb _))
  simp only [List.length_take, List.length_drop] at l1 l2 l3 l4
  have red := fun (q00 q01 q10 q11 : List Bool) e00 e01 e10 e11 => C10_reduction a.length b.length hab (by simp only [maxVars]; omega) m1 m2 q00 q01 q10 q11 e00 e01 e10 e11
  rw [pa, pb] at red
  simp only at red
  obtain ⟨e, outs, r1, r2, r3, r4, _⟩ := red (List.replicate p00.length false) (List.replicate p01.length false)
    (List.replicate p10.length false) (List.replicate p11.length false) (by rw [List.length_replicate]; omega) (by rw [List.length_replicate]; omega)
    (by rw [List.length_replicate]; omega) (by rw [List.length_replicate]; omega)
  obtain ⟨enc, he, hel⟩ := encode_some ⟨e, r1, r2⟩
  have hne : p00 ≠ [] := by intro h; rw [h] at l1; simp at l1; omega
  have nn1 := nodes_ext (s2.trans (s3.trans s4)).ext n1
  have nn2 := nodes_ext (s3.trans s4).ext n2
  have nn3 := nodes_ext s4.ext n3
  have hencN : AreNodes g4 .glev1 enc := by
    have e1 := encode_dflt 0 (p00.head hne) a.length b.length p00 p01 p10 p11
    rw [he] at e1
    intro n hn
    exact encode_mem (P := fun n => ∃ op, g4.weight n = some op ∧ opType op = some .glev1) e1.symm (nn1 _ (List.head_mem hne)) nn1 nn2 nn3 n4 n hn
  cases enc with
  | nil => rw [List.length_nil] at hel; omega
  | cons q rest =>
    obtain ⟨g5, m, c1, s5, n5, w5, i5⟩ := convert_first (deg := 1) (by decide) s4.live (AreNodes.live hencN (n := q) (by simp))
    obtain ⟨g6, ms, c2, s6, n6, l6⟩ := convertAll_live (deg := 1) (by decide) rest g5 s5.live (fun k hk =>
      AreNodes.live (nodes_ext s5.ext hencN) (by simp [hk]))
    have hns : AreNodes g6 .ggsw1 (m :: ms) := AreNodes.cons.2 ⟨(AreNodes.cons.1 (nodes_ext s6.ext n5)).1, n6⟩
    obtain ⟨g7, r, i1, s7, n7, l7, _⟩ := insertLib_ok (d := 1) (io := fun _ _ => True) (mode := .glev) s6.live (hlib.red _ _ _ r3 (by intro h; rw [h] at r4; simp at r4; omega))
      (nodes := m :: ms) (by rw [← hel]; simp [l6]) hns
    have s67 := s6.trans s7.toGrow
    refine ⟨g7, r, g4.nodes.length, ?_, by omega, n7, (s67.ext _ _ w5).1, ?_⟩
    · rw [mulNodes]
      simp only [hln, hsn]
      rw [pa, pb]
      simp only
      rw [if_neg (by omega), if_neg (by omega), dif_neg (by simp only [circuitCutoff]; omega)]
      simp only [a1, a2, a3, a4, he, convertAll, c1, c2, r3, i1]
    · intro deg cells v hc
      refine no_value (q := q) ?_ (s67.ext _ _ w5).1 (by rw [(s67.ext _ _ w5).2, i5]) hc v
      exact nodes_ext (s5.trans s67).ext (AreNodes.sub hencN (by simp))

/-- **C10 violated (Glev mode).** Multiplying two unsigned operands of 17 to 32 bits with Glev output builds a circuit of
the right shape (as many Glev result nodes as product bits) that cannot be executed: it contains a sample extraction that
is fed a Glev ciphertext, so it never produces a value, whatever the encrypted inputs. -/
theorem C10_glev_violated {lib : CircLib} (hlib : CircLibOk lib) {a b : List Nat} {g : FGraph} (ha1 : 17 ≤ a.length) (ha2 : a.length ≤ 32)
    (hb1 : 17 ≤ b.length) (hb2 : b.length ≤ 32) (hl : Live g) (ha : AreNodes g .ggsw1 a) (hb : AreNodes g .ggsw1 b) :
    ∃ g' lo hi n, appendMultiply lib .unsigned .glev a b g = some (g', lo, hi) ∧ AreNodes g' .glev1 (lo ++ hi) ∧
      (lo ++ hi).length = a.length + b.length ∧ g'.weight n = some (.sampleExtract 0) ∧
      ∀ deg cells v, (∀ t c, (cells t c).type = t) → ¬ FEval deg cells g' n v := by
  have key : ∃ g' r n, mulNodes lib .glev a b g = some (g', r) ∧ r.length = a.length + b.length ∧ AreNodes g' .glev1 r ∧ g'.weight n = some (.sampleExtract 0) ∧
      ∀ deg cells v, (∀ t c, (cells t c).type = t) → ¬ FEval deg cells g' n v := by
    by_cases h : b.length ≤ a.length
    · exact C10_glev_ordered hlib hb1 ha2 h hl ha hb
    · rw [mulNodes_swap (by omega)]
      obtain ⟨g', r, n, h1, h2, h3⟩ := C10_glev_ordered hlib ha1 hb2 (by omega) hl hb ha
      exact ⟨g', r, n, h1, by omega, h3⟩
  obtain ⟨g', r, n, h1, h2, h3, h4, h5⟩ := key
  refine ⟨g', r.take a.length, r.drop a.length, n, ?_, by rw [List.take_append_drop]; exact h3, by rw [List.take_append_drop]; exact h2, h4, h5⟩
  simp only [appendMultiply, appendUint, h1]
  rw [if_pos (by omega)]

/-! ### non-vacuity -/

/-- a circuit holding 17 encrypted bits -/
def exBits17 : FGraph := (graphInputs .ggsw1 (List.range 17) Graph.empty).1
theorem exBits17_ok : Live exBits17 ∧ AreNodes exBits17 .ggsw1 (graphInputs .ggsw1 (List.range 17) Graph.empty).2 ∧
    (graphInputs .ggsw1 (List.range 17) Graph.empty).2.length = 17 := by
  obtain ⟨h1, h2, h3, _⟩ := graphInputs_ok (d := 0) (io := fun _ _ => True) .ggsw1 (List.range 17) Graph.empty (by intro e he; cases he) (fun _ _ _ => trivial)
  exact ⟨h1.live, h2, by rw [h3]; simp⟩

example : ∃ g' lo hi n, appendMultiply (circuitOf shannonLib) .unsigned .glev (graphInputs .ggsw1 (List.range 17) Graph.empty).2
    (graphInputs .ggsw1 (List.range 17) Graph.empty).2 exBits17 = some (g', lo, hi) ∧ AreNodes g' .glev1 (lo ++ hi) ∧
      (lo ++ hi).length = 34 ∧ g'.weight n = some (.sampleExtract 0) ∧
      ∀ deg cells v, (∀ t c, (cells t c).type = t) → ¬ FEval deg cells g' n v := by
  have := C10_glev_violated (circLibOk_of bddLibOk_shannon) (by rw [exBits17_ok.2.2]) (by rw [exBits17_ok.2.2]; decide) (by rw [exBits17_ok.2.2])
    (by rw [exBits17_ok.2.2]; decide) exBits17_ok.1 exBits17_ok.2.1 exBits17_ok.2.1
  rw [exBits17_ok.2.2] at this
  exact this

example : ∃ ctx' lo, mul (circuitOf shannonLib) .signed .glev id (graphInputs .ggsw1 (List.range 17) Graph.empty).2
    (graphInputs .ggsw1 (List.range 17) Graph.empty).2 ⟨exBits17, [], []⟩ = some (ctx', lo) ∧ Live ctx'.circuit := by
  obtain ⟨c, lo, h1, h2, _⟩ := C72_mul_partial (circLibOk_of bddLibOk_shannon) (deg := 1) (by decide) (sign := .signed) (mode := .glev) (order := id)
    (ctx := ⟨exBits17, [], []⟩) (a := (graphInputs .ggsw1 (List.range 17) Graph.empty).2) (b := (graphInputs .ggsw1 (List.range 17) Graph.empty).2)
    (fun l => .refl l) (by rw [exBits17_ok.2.2]; exact mulWidths_32 (by decide) (by decide) (by decide) (by decide) (by decide)) (Or.inl rfl)
    exBits17_ok.1 exBits17_ok.2.1 exBits17_ok.2.1
  exact ⟨c, lo, h1, h2⟩

example : CtxOk exMul ∧ ∃ tys', check 8 [.constBit .ggsw1 true, .convert 0 .glwe1] [] = some tys' := ⟨exMul_ok, _, rfl⟩

example : MulWidths 64 64 ∧ MulWidths 20 31 := ⟨mulWidths_pow 16 2 (by decide) (by decide) (by decide),
  mulWidths_32 (by decide) (by decide) (by decide) (by decide) (by decide)⟩

end Spf.Props
