import Verif.Proof.Fluent
import Verif.Props.Arith
/-! Lemmas about the individual fluent operations. -/
namespace Spf.Fluent
open Spf.Spec Spf.Fhe Spf.Props Graph

/-- the result of a builder step: a live graph extending the old one -/
structure Grow (g g' : FGraph) : Prop where
  live : Live g'
  ext : FExt g g'

theorem Grow.refl {g : FGraph} (h : Live g) : Grow g g := ⟨h, FExt.refl g⟩
theorem Grow.trans {a b c : FGraph} (h : Grow a b) (h' : Grow b c) : Grow a c := ⟨h'.live, h.ext.trans h'.ext⟩

/-- and one that cannot fail if the old one cannot -/
structure Step (d : Nat) (io : Nat → FheOp → Prop) (g g' : FGraph) : Prop extends Grow g g' where
  good : Good d io g → Good d io g'

theorem Step.refl {d : Nat} {io : Nat → FheOp → Prop} {g : FGraph} (h : Live g) : Step d io g g := ⟨Grow.refl h, id⟩
theorem Step.trans {d : Nat} {io : Nat → FheOp → Prop} {a b c : FGraph} (h : Step d io a b) (h' : Step d io b c) : Step d io a c :=
  ⟨h.toGrow.trans h'.toGrow, fun hg => h'.good (h.good hg)⟩

theorem AreNodes.cons {g : FGraph} {t n ns} : AreNodes g t (n :: ns) ↔ (∃ op, g.weight n = some op ∧ opType op = some t) ∧ AreNodes g t ns := by
  unfold AreNodes; simp

theorem AreNodes.append {g : FGraph} {t a b} (ha : AreNodes g t a) (hb : AreNodes g t b) : AreNodes g t (a ++ b) := by
  intro n hn
  rcases List.mem_append.1 hn with h | h
  · exact ha n h
  · exact hb n h

theorem AreNodes.sub {g : FGraph} {t a b} (hb : AreNodes g t b) (h : ∀ n ∈ a, n ∈ b) : AreNodes g t a := fun n hn => hb n (h n hn)

/-! ### constants, inputs, outputs -/

theorem leaf_step {d : Nat} {io : Nat → FheOp → Prop} {g : FGraph} (hl : Live g) (op : FheOp) (hx : ∀ cells, (execOp d cells op []).isSome) (hio : Internal op ∨ ∀ n, io n op) : Step d io g (g.addNode op).1 := by
  rw [addNode_ext1]
  exact ⟨⟨ext1_live hl (by simp), ext1_ext _ _ _⟩, ext1_good hl hio (by simp) fun cells _ _ _ => hx cells⟩

theorem leaf_eval {g : FGraph} (hl : Live g) {op : FheOp} {deg cells v} (hx : execOp deg cells op [] = some v) :
    FEval deg cells (g.addNode op).1 (g.addNode op).2 v := by
  rw [addNode_ext1]
  exact ext1_eval hl (fun _ => v) (by simp) hx

theorem graphInputs_ok {d : Nat} {io : Nat → FheOp → Prop} (t : CtType) : ∀ (cs : List Nat) (g : FGraph), Live g → (∀ c ∈ cs, ∀ n, io n (.input t c)) →
    Step d io g (graphInputs t cs g).1 ∧ AreNodes (graphInputs t cs g).1 t (graphInputs t cs g).2 ∧
    (graphInputs t cs g).2.length = cs.length ∧
    ∀ deg cells, List.Forall₂ (fun n c => FEval deg cells (graphInputs t cs g).1 n (cells t c)) (graphInputs t cs g).2 cs
  | [], g, hl, _ => ⟨Step.refl hl, (by intro n hn; cases hn), rfl, fun _ _ => .nil⟩
  | c :: cs, g, hl, hio => by
    have h1 := leaf_step (d := d) (io := io) hl (.input t c) (fun _ => rfl) (Or.inr (hio c (by simp)))
    obtain ⟨h2, h3, h4, h5⟩ := graphInputs_ok t cs (g.addNode (.input t c)).1 h1.live fun c' hc' => hio c' (by simp [hc'])
    refine ⟨h1.trans h2, AreNodes.cons.2 ⟨⟨.input t c, ?_, rfl⟩, h3⟩, by simp [graphInputs] at h4 ⊢; exact h4, fun deg cells => .cons ?_ (h5 deg cells)⟩
    · exact (h2.ext _ _ (by rw [addNode_ext1]; exact ext1_weight g _ _)).1
    · exact h2.ext.eval (leaf_eval hl rfl)

theorem convertAll_ok {deg : Nat} {io : Nat → FheOp → Prop} (hdeg : 0 < deg) (inT outT : CtType) : ∀ (ns : List Nat) (g : FGraph), Live g → AreNodes g inT ns →
    ∃ g' ms, convertAll inT outT ns g = some (g', ms) ∧ Step deg io g g' ∧ AreNodes g' outT ms ∧ ms.length = ns.length ∧
      ∀ cells bits, Holds deg cells g inT ns bits → Holds deg cells g' outT ms bits
  | [], g, hl, _ => ⟨g, [], rfl, Step.refl hl, (by intro n hn; cases hn), rfl, fun cells bits h => by cases h; exact .nil⟩
  | n :: ns, g, hl, hn => by
    obtain ⟨⟨op, hw, ht⟩, hns⟩ := AreNodes.cons.1 hn
    obtain ⟨g1, m, h1, c1⟩ := convert_ok hdeg 5 g n inT outT hl (by rw [hw]; rfl) (by cases inT <;> cases outT <;> decide)
    obtain ⟨g2, ms, h2, s2, a2, l2, v2⟩ := convertAll_ok hdeg inT outT ns g1 c1.live (nodes_ext c1.ext hns)
    refine ⟨g2, m :: ms, by simp only [convertAll, h1, h2], Step.trans ⟨⟨c1.live, c1.ext⟩, c1.good ⟨op, hw, ht⟩ io⟩ s2, AreNodes.cons.2 ⟨?_, a2⟩, by simp [l2], ?_⟩
    · by_cases he : inT = outT
      · obtain ⟨rfl, rfl⟩ := c1.same he
        exact ⟨op, (s2.ext _ _ hw).1, by rw [ht, he]⟩
      · obtain ⟨op', b1, b2⟩ := c1.kind he
        exact ⟨op', (s2.ext _ _ b1).1, b2⟩
    · intro cells bits hb
      cases hb with
      | @cons _ b _ bs hx hxs =>
        refine .cons ?_ (v2 cells bs (holds_ext c1.ext hxs))
        by_cases he : inT = outT
        · obtain ⟨rfl, rfl⟩ := c1.same he
          rw [← he]; exact s2.ext.eval hx
        · obtain ⟨v', d1, _, d3, d4⟩ := c1.value cells _ hx (ctOf_type _ _)
          rw [d4 he, ctOf_bit] at d1
          exact s2.ext.eval d1

theorem collectOutputs_ok (t : CtType) : ∀ (ns cs : List Nat) (g : FGraph), Live g → ns.length = cs.length → (∀ n ∈ ns, (g.weight n).isSome) →
    ∃ g' os, collectOutputs t ns cs g = some (g', os) ∧ Grow g g' ∧ os.length = ns.length ∧
      (∀ d io, (∀ c ∈ cs, ∀ n, io n (.output t c)) → AreNodes g t ns → Good d io g → Good d io g') ∧
      List.Forall₂ (fun o c => g'.weight o = some (.output t c)) os cs ∧
      ∀ deg cells vs, List.Forall₂ (fun n v => FEval deg cells g n v ∧ v.type = t) ns vs → List.Forall₂ (FEval deg cells g') os vs
  | [], [], g, hl, _, _ => ⟨g, [], rfl, Grow.refl hl, rfl, fun _ _ _ _ h => h, .nil, fun _ _ vs h => by cases h; exact .nil⟩
  | n :: ns, c :: cs, g, hl, hlen, hn => by
    have hw := hn n (by simp)
    have he := addEdge_ext1 (op := .output t c) (es := []) (k := FheEdge.unary) hw
    have hs : Grow g (ext1 g (.output t c) [(n, .unary)]) := ⟨ext1_live hl (by simpa using hw), ext1_ext _ _ _⟩
    obtain ⟨g2, os, h2, s2, l2, q2, w2, v2⟩ := collectOutputs_ok t ns cs _ hs.live (by simpa using hlen) (by
      intro m hm
      rw [ext1_old (hn m (by simp [hm]))]; exact hn m (by simp [hm]))
    refine ⟨g2, g.nodes.length :: os, ?_, hs.trans s2, by simp [l2], fun d io hio hn hg => ?_, .cons ((s2.ext _ _ (ext1_weight _ _ _)).1) w2, ?_⟩
    · simp only [collectOutputs, addNode_ext1, he, h2]
    · obtain ⟨n1, n2⟩ := AreNodes.cons.1 hn
      exact q2 d io (fun c' hc' => hio c' (by simp [hc'])) (nodes_ext hs.ext n2) (ext1_good1 hl (Or.inr (hio c (by simp))) n1 (fun cells v hv => by simp [execOp, hv]) hg)
    · intro deg cells vs hv
      cases hv with
      | @cons _ v _ vs hx hxs =>
        refine .cons ?_ (v2 deg cells vs (hxs.imp fun a b hab => ⟨hs.ext.eval hab.1, hab.2⟩))
        refine s2.ext.eval (ext1_eval hl (fun _ => v) (by simpa using hx.1) ?_)
        simp [execOp, hx.2]

/-! ### padding -/

/-- zero-extension of a list of bits -/
def padTo (n : Nat) (l : List Bool) : List Bool := l ++ List.replicate (n - l.length) false

theorem valLE_zeros (k : Nat) : valLE (List.replicate k false) = 0 := by
  induction k with
  | zero => rfl
  | succ k ih => rw [List.replicate_succ, valLE_cons, ih]; rfl

theorem padTo_val (n : Nat) (l : List Bool) : valLE (padTo n l) = valLE l := by
  unfold padTo; rw [valLE_append, valLE_zeros, Nat.mul_zero, Nat.add_zero]

theorem padTo_length {n : Nat} {l : List Bool} (h : l.length ≤ n) : (padTo n l).length = n := by
  unfold padTo; simp; omega

theorem padTo_self {n : Nat} {l : List Bool} (h : n ≤ l.length) : padTo n l = l := by
  unfold padTo; rw [Nat.sub_eq_zero_of_le h]; simp

theorem padTo_cons (n : Nat) (x : Bool) (l : List Bool) : padTo (n + 1) (x :: l) = x :: padTo n l := by
  unfold padTo; simp

theorem padTo_nil (n : Nat) : padTo n [] = List.replicate n false := by unfold padTo; simp

theorem interleavePadded_cons (x y : Nat) (a b : List Nat) (z : Nat) :
    interleavePadded (x :: a) (y :: b) z = x :: y :: interleavePadded a b z := by
  simp [interleavePadded, zipNodes]

theorem interleavePadded_nil_left (b : List Nat) (z : Nat) : interleavePadded [] b z = b.flatMap fun x => [z, x] := by
  simp [interleavePadded, zipNodes]

theorem interleavePadded_nil_right (a : List Nat) (z : Nat) : interleavePadded a [] z = a.flatMap fun x => [x, z] := by
  simp [interleavePadded, zipNodes]

theorem interleavePadded_length : ∀ (a b : List Nat) (z : Nat), (interleavePadded a b z).length = 2 * max b.length a.length
  | [], b, z => by
    rw [interleavePadded_nil_left]
    induction b with
    | nil => rfl
    | cons x b ih => simp at ih ⊢; omega
  | x :: a, [], z => by
    rw [interleavePadded_nil_right]
    generalize x :: a = l
    induction l with
    | nil => rfl
    | cons x b ih => simp at ih ⊢; omega
  | x :: a, y :: b, z => by
    rw [interleavePadded_cons]
    have := interleavePadded_length a b z
    simp; omega

theorem interleavePadded_mem {a b : List Nat} {z n : Nat} (h : n ∈ interleavePadded a b z) : n ∈ a ∨ n ∈ b ∨ n = z := by
  unfold interleavePadded zipNodes at h
  simp only [List.mem_append, List.mem_flatMap, List.mem_cons, List.not_mem_nil, or_false] at h
  rcases h with (⟨p, hp, h⟩ | ⟨x, hx, h⟩) | ⟨x, hx, h⟩
  · have := List.of_mem_zip (show (p.1, p.2) ∈ a.zip b from hp)
    rcases h with rfl | rfl
    · exact Or.inl this.1
    · exact Or.inr (Or.inl this.2)
  · rcases h with rfl | rfl
    · exact Or.inl (List.mem_of_mem_drop hx)
    · exact Or.inr (Or.inr rfl)
  · rcases h with rfl | rfl
    · exact Or.inr (Or.inr rfl)
    · exact Or.inr (Or.inl (List.mem_of_mem_drop hx))

theorem interleavePadded_holds {deg cells g t z} (hz : FEval deg cells g z (ctOf t false)) : ∀ {a b : List Nat} {va vb : List Bool},
    Holds deg cells g t a va → Holds deg cells g t b vb →
    Holds deg cells g t (interleavePadded a b z) (interleave (padTo (max vb.length va.length) va) (padTo (max vb.length va.length) vb))
  | [], b, va, vb, ha, hb => by
    cases ha
    rw [interleavePadded_nil_left, padTo_nil, padTo_self (l := vb) (by simp)]
    simp only [List.length_nil, Nat.max_zero]
    induction hb with
    | nil => exact .nil
    | @cons y w b vb h1 _ ih =>
      rw [List.length_cons, List.replicate_succ, List.flatMap_cons]
      exact .cons hz (.cons h1 ih)
  | x :: a, [], va, vb, ha, hb => by
    cases hb
    rw [interleavePadded_nil_right, padTo_nil, padTo_self (l := va) (by simp)]
    simp only [List.length_nil, Nat.zero_max]
    generalize x :: a = l at ha ⊢
    induction ha with
    | nil => exact .nil
    | @cons y w b vb h1 _ ih =>
      rw [List.length_cons, List.replicate_succ, List.flatMap_cons]
      exact .cons h1 (.cons hz ih)
  | x :: a, y :: b, va, vb, ha, hb => by
    cases ha with
    | @cons _ v _ va h1 h2 =>
      cases hb with
      | @cons _ w _ vb h3 h4 =>
        rw [interleavePadded_cons]
        rw [show max (w :: vb).length (v :: va).length = max vb.length va.length + 1 by simp [Nat.add_max_add_right], padTo_cons, padTo_cons]
        exact .cons h1 (.cons h3 (interleavePadded_holds hz h2 h4))

theorem zipNodes_eq (a b : List Nat) (h : a.length = b.length) (z : Nat) : zipNodes a b = interleavePadded a b z := by
  unfold interleavePadded
  rw [List.drop_eq_nil_of_le (by omega), List.drop_eq_nil_of_le (by omega)]
  simp

theorem zipNodes_take : ∀ (a b : List Nat), zipNodes a b = zipNodes a (b.take a.length)
  | [], b => by simp [zipNodes]
  | x :: a, [] => by simp [zipNodes]
  | x :: a, y :: b => by
    have := zipNodes_take a b
    unfold zipNodes at this ⊢
    simp [this]

theorem zipNodes_length : ∀ (a b : List Nat), (zipNodes a b).length = 2 * min a.length b.length
  | [], b => by simp [zipNodes]
  | x :: a, [] => by simp [zipNodes]
  | x :: a, y :: b => by
    have := zipNodes_length a b
    unfold zipNodes at this ⊢
    simp at this ⊢; omega

theorem zipNodes_mem {a b : List Nat} {n : Nat} (h : n ∈ zipNodes a b) : n ∈ a ∨ n ∈ b := by
  unfold zipNodes at h
  simp only [List.mem_flatMap, List.mem_cons, List.not_mem_nil, or_false] at h
  obtain ⟨p, hp, h⟩ := h
  have := List.of_mem_zip (show (p.1, p.2) ∈ a.zip b from hp)
  rcases h with rfl | rfl
  · exact Or.inl this.1
  · exact Or.inr this.2

theorem zipNodes_holds {deg cells g t} : ∀ {a b : List Nat} {va vb : List Bool}, Holds deg cells g t a va → Holds deg cells g t b vb →
    a.length = b.length → Holds deg cells g t (zipNodes a b) (interleave va vb)
  | _, _, _, _, .nil, .nil, _ => .nil
  | _, _, _, _, .nil, .cons _ _, h => by simp at h
  | _, _, _, _, .cons _ _, .nil, h => by simp at h
  | _, _, _, _, .cons h1 h2, .cons h3 h4, h => .cons h1 (.cons h3 (zipNodes_holds h2 h4 (by simpa using h)))

theorem holds_take {deg cells g t} {a : List Nat} {va : List Bool} (h : Holds deg cells g t a va) (n : Nat) :
    Holds deg cells g t (a.take n) (va.take n) := List.forall₂_take n h

theorem holds_append {deg cells g t} {a b : List Nat} {va vb : List Bool} (h : Holds deg cells g t a va) (h' : Holds deg cells g t b vb) :
    Holds deg cells g t (a ++ b) (va ++ vb) := List.rel_append h h'

theorem holds_replicate {deg cells g t n b} (h : FEval deg cells g n (ctOf t b)) (k : Nat) :
    Holds deg cells g t (List.replicate k n) (List.replicate k b) := by
  induction k with
  | zero => exact .nil
  | succ k ih => exact .cons h ih

/-- comparisons on padded operands -/
theorem insertCmp_ok {d : Nat} {io : Nat → FheOp → Prop} {lib : BddLib} (hlib : BddLibOk lib) {g : FGraph} (hl : Live g) {a b : List Nat} (ha : AreNodes g .ggsw1 a)
    (hb : AreNodes g .ggsw1 b) {gen : Nat → Option (List BddFn)} {f : BddFn} (hg : gen (max b.length a.length) = some [f]) (mode : MuxMode) :
    ∃ g' r, insertCmp lib gen a b mode g = some (g', r) ∧ Step d io g g' ∧ AreNodes g' (modeType mode) [r] ∧
      ∀ deg cells va vb, Holds deg cells g .ggsw1 a va → Holds deg cells g .ggsw1 b vb →
        FEval deg cells g' r (ctOf (modeType mode)
          (f (wires (interleave (padTo (max vb.length va.length) va) (padTo (max vb.length va.length) vb))))) := by
  have s1 := leaf_step (d := d) (io := io) hl .zeroGgsw1 (fun _ => rfl) (Or.inl (Internal.of rfl (by intro t c h; cases h)))
  obtain ⟨g', res, h1, h2, h3, h4, h5, hgd, h6⟩ := insertGen_ok (mode := mode) hlib s1.live (fs := [f]) (by simp)
    (nodes := interleavePadded a b (g.addNode .zeroGgsw1).2) (interleavePadded_length a b _) (by
      intro n hn
      rcases interleavePadded_mem hn with h | h | rfl
      · exact nodes_ext s1.ext ha n h
      · exact nodes_ext s1.ext hb n h
      · exact ⟨.zeroGgsw1, ext1_weight g .zeroGgsw1 [], rfl⟩)
  match res, h5 with
  | [r], _ =>
    refine ⟨g', r, ?_, s1.trans ⟨⟨h2, h3⟩, hgd d io⟩, h4, ?_⟩
    · unfold insertCmp
      simp only [hg]
      rw [show g.addNode FheOp.zeroGgsw1 = ((g.addNode FheOp.zeroGgsw1).1, (g.addNode FheOp.zeroGgsw1).2) from rfl]
      simp only [h1]; rfl
    · intro deg cells va vb hva hvb
      have := h6 deg cells _ (interleavePadded_holds (leaf_eval hl rfl) (holds_ext s1.ext hva) (holds_ext s1.ext hvb))
      cases this with
      | cons h _ => exact h

end Spf.Fluent
