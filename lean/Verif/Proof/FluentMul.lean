import Verif.Proof.FluentProg
import Verif.Spec.FluentMul
import Verif.Props.Gradeschool
/-! Proofs about multiplication on circuits. -/
namespace Spf.Fluent
open Spf.Spec Spf.Fhe Spf.Props Spf.Mul Graph

theorem insertLib_ok {d : Nat} {io : Nat → FheOp → Prop} {lib : CircLib} {g : FGraph} (hl : Live g) {fs : List BddFn} {nv : Nat} (hlib : CircOk lib nv fs)
    {nodes : List Nat} {mode : MuxMode} (hlen : nodes.length = nv) (hk : AreNodes g .ggsw1 nodes) :
    ∃ g' res, insertLib lib nv (some fs) nodes mode g = some (g', res) ∧ Step d io g g' ∧ AreNodes g' (modeType mode) res ∧
      res.length = fs.length ∧
      ∀ deg cells bits, Holds deg cells g .ggsw1 nodes bits → Holds deg cells g' (modeType mode) res (fs.map (· (wires bits))) := by
  obtain ⟨c, fs', h1, h2, h3, h4, h5, h6⟩ := hlib
  have hacc : ∀ n ∈ nodes, ∃ op, g.weight n = some op ∧ acceptsMux op = true := by
    intro n hn
    obtain ⟨op, b1, b2⟩ := hk n hn
    exact ⟨op, b1, accepts_of_type b2⟩
  obtain ⟨g', res, a1, a2, a3, a4, a5, a6⟩ := insertMux_ok (mode := mode) hl h2 h4 h3 hlen hacc
  have hrl : res.length = fs.length := by rw [a4, h5]
  refine ⟨g', res, ?_, ⟨⟨a2, a3⟩, fun hg => insertMux_good hl h2 h4 h3 hlen hacc hk a1 hg⟩, ?_, hrl, ?_⟩
  · unfold insertLib; simp only [h1, a1]
  · intro r hr
    obtain ⟨m, op, b1, b2⟩ := a5 r hr
    exact ⟨op, b2, mapOp_type b1⟩
  · intro deg cells bits hb
    have hbl : bits.length = nv := by rw [← hb.length_eq]; exact hlen
    unfold Holds
    rw [List.forall₂_iff_get]
    refine ⟨by rw [hrl, List.length_map], ?_⟩
    intro i hi1 hi2
    have hif : i < fs.length := by rw [← hrl]; exact hi1
    have hif' : i < fs'.length := by rw [h5]; exact hif
    have hev := a6 deg cells (wires bits) (by
      intro j n hn
      have hj := (List.getElem?_eq_some_iff.1 hn).1
      have := (List.forall₂_iff_get.1 hb).2 j hj (by rw [hbl, ← hlen]; exact hj)
      rw [List.get_eq_getElem, List.get_eq_getElem] at this
      rw [List.getElem?_eq_getElem hj] at hn
      rw [Option.some.inj hn] at this
      have hjb : j < bits.length := by rw [hbl, ← hlen]; exact hj
      rw [show wires bits j = bits[j] by unfold wires; rw [List.getD_eq_getElem?_getD, List.getElem?_eq_getElem hjb]; rfl]
      exact this) i fs'[i] res[i] (List.getElem?_eq_getElem hif') (List.getElem?_eq_getElem hi1)
    rw [h6 i fs[i] fs'[i] (List.getElem?_eq_getElem hif) (List.getElem?_eq_getElem hif') (wires bits)
      (fun j hj => wires_beyond bits (by omega))] at hev
    have : mode.val (fs[i] (wires bits)) = ctOf (modeType mode) (fs[i] (wires bits)) := by cases mode <;> rfl
    rw [this] at hev
    simpa using hev

/-! ### the reduction encoding -/

theorem getD_congr {α} {l : List α} {i : Nat} (h : i < l.length) (d d' : α) : l.getD i d = l.getD i d' := by
  simp [List.getD_eq_getElem?_getD, List.getElem?_eq_getElem h]

theorem flatMap_congr' {α β} {l : List α} {f g : α → List β} (h : ∀ x ∈ l, f x = g x) : l.flatMap f = l.flatMap g := by
  induction l with
  | nil => rfl
  | cons x l ih =>
    rw [List.flatMap_cons, List.flatMap_cons, h x (by simp), ih fun y hy => h y (by simp [hy])]

theorem encode_dflt {α} (d d' : α) (n m : Nat) (p00 p01 p10 p11 : List α) :
    encodeGradeschoolReduction d n m p00 p01 p10 p11 = encodeGradeschoolReduction d' n m p00 p01 p10 p11 := by
  unfold encodeGradeschoolReduction
  simp only
  generalize (partitionInteger n).1 = aLo
  generalize (partitionInteger n).2 = aHi
  generalize (partitionInteger m).1 = bLo
  generalize (partitionInteger m).2 = bHi
  by_cases h1 : p00.length ≠ aLo + bLo ∨ p01.length ≠ aLo + bHi ∨ p10.length ≠ aHi + bLo ∨ p11.length ≠ aHi + bHi
  · simp only [if_pos h1]
  simp only [if_neg h1]
  by_cases h2 : ¬ (aLo ≥ bLo) ∨ ¬ (aHi ≤ aLo) ∨ ¬ (bHi ≤ bLo)
  · simp only [if_pos h2]
  simp only [if_neg h2]
  by_cases h3 : aHi < bHi
  · simp only [if_pos h3]
  simp only [if_neg h3]
  have l00 : p00.length = aLo + bLo := by omega
  have l01 : p01.length = aLo + bHi := by omega
  have l10 : p10.length = aHi + bLo := by omega
  have l11 : p11.length = aHi + bHi := by omega
  congr 1
  congr 1
  congr 1
  congr 1
  congr 1
  congr 1
  · apply List.map_congr_left
    intro i hi; rw [List.mem_range] at hi
    exact getD_congr (by omega) _ _
  · apply flatMap_congr'
    intro i hi; rw [List.mem_range] at hi
    rw [getD_congr (d := d) (d' := d') (l := p00) (by omega), getD_congr (d := d) (d' := d') (l := p01) (by omega)]
  · apply flatMap_congr'
    intro i hi; rw [List.mem_range] at hi
    rw [getD_congr (d := d) (d' := d') (l := p00) (by omega), getD_congr (d := d) (d' := d') (l := p10) (by omega),
      getD_congr (d := d) (d' := d') (l := p01) (by omega)]
  · apply flatMap_congr'
    intro i hi; rw [List.mem_range] at hi
    rw [getD_congr (d := d) (d' := d') (l := p10) (by omega), getD_congr (d := d) (d' := d') (l := p01) (by omega),
      getD_congr (d := d) (d' := d') (l := p11) (by omega)]
  · apply flatMap_congr'
    intro i hi; rw [List.mem_range] at hi
    rw [getD_congr (d := d) (d' := d') (l := p10) (by omega), getD_congr (d := d) (d' := d') (l := p11) (by omega)]
  · apply List.map_congr_left
    intro i hi; rw [List.mem_range] at hi
    exact getD_congr (by omega) _ _

theorem getD_map {α β} (f : α → β) (d : α) (l : List α) (i : Nat) : (l.map f).getD i (f d) = f (l.getD i d) := by
  simp only [List.getD_eq_getElem?_getD, List.getElem?_map]
  cases l[i]? <;> rfl

theorem encode_map {α β} (f : α → β) (d : α) (n m : Nat) (p00 p01 p10 p11 : List α) :
    encodeGradeschoolReduction (f d) n m (p00.map f) (p01.map f) (p10.map f) (p11.map f) =
      (encodeGradeschoolReduction d n m p00 p01 p10 p11).map (List.map f) := by
  unfold encodeGradeschoolReduction
  simp only [List.length_map, getD_map]
  split
  · rfl
  · split
    · rfl
    · split
      · rfl
      · simp only [Option.map_some, List.map_append, List.map_map, List.map_flatMap, List.map_cons, List.map_nil]
        rfl

theorem forall₂_zip {α β} {R : α → β → Prop} {l : List α} {l' : List β} (h : List.Forall₂ R l l') : ∀ p ∈ l.zip l', R p.1 p.2 := by
  induction h with
  | nil => intro p hp; cases hp
  | cons hx _ ih =>
    intro p hp
    rcases List.mem_cons.1 hp with rfl | hp
    · exact hx
    · exact ih p hp

theorem encode_mem {α} {d : α} {n m : Nat} {p00 p01 p10 p11 r : List α} (h : encodeGradeschoolReduction d n m p00 p01 p10 p11 = some r)
    {P : α → Prop} (hd : P d) (h00 : ∀ x ∈ p00, P x) (h01 : ∀ x ∈ p01, P x) (h10 : ∀ x ∈ p10, P x) (h11 : ∀ x ∈ p11, P x) :
    ∀ x ∈ r, P x := by
  have key : ∀ (l : List α) i, (∀ x ∈ l, P x) → P (l.getD i d) := by
    intro l i hl
    rw [List.getD_eq_getElem?_getD]
    cases he : l[i]? with
    | none => exact hd
    | some x => exact hl x (List.mem_of_getElem? he)
  unfold encodeGradeschoolReduction at h
  simp only at h
  split at h
  · cases h
  · split at h
    · cases h
    · split at h
      · cases h
      · cases h
        intro x hx
        simp only [List.mem_append, List.mem_map, List.mem_flatMap, List.mem_cons, List.not_mem_nil, or_false] at hx
        rcases hx with ((((⟨i, _, rfl⟩ | ⟨i, _, hx⟩) | ⟨i, _, hx⟩) | ⟨i, _, hx⟩) | ⟨i, _, hx⟩) | ⟨i, _, rfl⟩
        · exact key _ _ h00
        · rcases hx with rfl | rfl
          · exact key _ _ h00
          · exact key _ _ h01
        · rcases hx with rfl | rfl | rfl
          · exact key _ _ h00
          · exact key _ _ h10
          · exact key _ _ h01
        · rcases hx with rfl | rfl | rfl
          · exact key _ _ h10
          · exact key _ _ h01
          · exact key _ _ h11
        · rcases hx with rfl | rfl
          · exact key _ _ h10
          · exact key _ _ h11
        · exact key _ _ h11

theorem encode_rel {α β} {R : α → β → Prop} {d : α} {d' : β} {n m : Nat} {p00 p01 p10 p11 : List α} {q00 q01 q10 q11 : List β}
    (h00 : List.Forall₂ R p00 q00) (h01 : List.Forall₂ R p01 q01) (h10 : List.Forall₂ R p10 q10) (h11 : List.Forall₂ R p11 q11)
    (hne : p00 ≠ []) {r : List α} {r' : List β} (hr : encodeGradeschoolReduction d n m p00 p01 p10 p11 = some r)
    (hr' : encodeGradeschoolReduction d' n m q00 q01 q10 q11 = some r') : List.Forall₂ R r r' := by
  have hz : ∀ {l : List α} {l' : List β}, List.Forall₂ R l l' → (l.zip l').map Prod.fst = l ∧ (l.zip l').map Prod.snd = l' := by
    intro l l' h
    have := h.length_eq
    exact ⟨List.map_fst_zip (by omega), List.map_snd_zip (by omega)⟩
  cases h00 with
  | nil => exact absurd rfl hne
  | @cons x y xs ys hxy hxs =>
    have h00 := List.Forall₂.cons hxy hxs
    have e1 := encode_map (Prod.fst : α × β → α) (x, y) n m ((x :: xs).zip (y :: ys)) (p01.zip q01) (p10.zip q10) (p11.zip q11)
    have e2 := encode_map (Prod.snd : α × β → β) (x, y) n m ((x :: xs).zip (y :: ys)) (p01.zip q01) (p10.zip q10) (p11.zip q11)
    rw [(hz h00).1, (hz h01).1, (hz h10).1, (hz h11).1, encode_dflt _ d, hr] at e1
    rw [(hz h00).2, (hz h01).2, (hz h10).2, (hz h11).2, encode_dflt _ d', hr'] at e2
    cases he : encodeGradeschoolReduction (x, y) n m ((x :: xs).zip (y :: ys)) (p01.zip q01) (p10.zip q10) (p11.zip q11) with
    | none => rw [he] at e1; cases e1
    | some ps =>
      rw [he] at e1 e2
      simp only [Option.map_some, Option.some.injEq] at e1 e2
      have hall := encode_mem he (P := fun p => R p.1 p.2) hxy (forall₂_zip h00) (forall₂_zip h01) (forall₂_zip h10) (forall₂_zip h11)
      rw [e1, e2]
      clear e1 e2 he
      induction ps with
      | nil => exact .nil
      | cons p ps ih => exact .cons (hall p (by simp)) (ih fun q hq => hall q (by simp [hq]))

/-! ### the unsigned product -/

theorem muxType_eq (mode : MuxMode) : muxType mode = modeType mode := by cases mode <;> rfl

theorem mulNodes_swap {lib : CircLib} {mode : MuxMode} {a b : List Nat} {g : FGraph} (h : a.length < b.length) :
    mulNodes lib mode a b g = mulNodes lib mode b a g := by
  have e1 : longerN a b = longerN b a := by unfold longerN; rw [if_pos h, if_neg (by omega)]
  have e2 : shorterN a b = shorterN b a := by unfold shorterN; rw [if_pos h, if_neg (by omega)]
  rw [mulNodes.eq_def lib mode a b g, mulNodes.eq_def lib mode b a g]
  simp only [e1, e2]

theorem mulImpl_swap {a b : List Bool} (h : a.length < b.length) : mulImpl a b = mulImpl b a := by
  have e1 : longer a b = longer b a := by unfold longer; rw [if_pos h, if_neg (by omega)]
  have e2 : shorter a b = shorter b a := by unfold shorter; rw [if_pos h, if_neg (by omega)]
  rw [mulImpl.eq_def a b, mulImpl.eq_def b a]
  simp only [e1, e2]

theorem holds_drop {deg cells g t} {a : List Nat} {va : List Bool} (h : Holds deg cells g t a va) (n : Nat) :
    Holds deg cells g t (a.drop n) (va.drop n) := List.forall₂_drop n h

/-- what a correct product circuit is -/
def MulDone (lib : CircLib) (deg : Nat) (io : Nat → FheOp → Prop) (mode : MuxMode) (a b : List Nat) (g : FGraph) : Prop :=
  ∃ g' r, mulNodes lib mode a b g = some (g', r) ∧ Step deg io g g' ∧ AreNodes g' (modeType mode) r ∧ r.length = a.length + b.length ∧
    ∀ cells va vb, Holds deg cells g .ggsw1 a va → Holds deg cells g .ggsw1 b vb →
      ∃ out, mulImpl va vb = some out ∧ Holds deg cells g' (modeType mode) r out

theorem mulDone_swap {io : Nat → FheOp → Prop} {lib : CircLib} {deg : Nat} {mode : MuxMode} {a b : List Nat} {g : FGraph} (h : a.length < b.length)
    (hd : MulDone lib deg io mode b a g) : MulDone lib deg io mode a b g := by
  obtain ⟨g', r, h1, h2, h3, h4, h5⟩ := hd
  refine ⟨g', r, by rw [mulNodes_swap h]; exact h1, h2, h3, by omega, ?_⟩
  intro cells va vb ha hb
  have la := ha.length_eq
  have lb := hb.length_eq
  rw [mulImpl_swap (by omega)]
  exact h5 cells vb va hb ha

theorem mulNodes_base {io : Nat → FheOp → Prop} {lib : CircLib} (hlib : CircLibOk lib) {deg : Nat} {mode : MuxMode} {a b : List Nat} {g : FGraph} (hl : Live g)
    (ha : AreNodes g .ggsw1 a) (hb : AreNodes g .ggsw1 b) (hab : b.length ≤ a.length) (h1 : 1 ≤ b.length) (h2 : a.length ≤ 16) :
    MulDone lib deg io mode a b g := by
  have hln : longerN a b = a := by unfold longerN; rw [if_neg (by omega)]
  have hsn : shorterN a b = b := by unfold shorterN; rw [if_neg (by omega)]
  have hmul : 2 * a.length * b.length ≤ 2 * 16 * 16 := Nat.mul_le_mul (Nat.mul_le_mul_left 2 h2) (by omega)
  obtain ⟨outs, o1, o2, _⟩ := C09_multiplier (List.replicate a.length false) (List.replicate b.length false)
    (by simp; omega) (by simp; omega) (by simp only [List.length_replicate, maxVars]; omega) (by simp; omega)
  simp only [List.length_replicate] at o1 o2
  obtain ⟨g', r, a1, a2, a3, a4, a5⟩ := insertLib_ok (d := deg) (io := io) (mode := mode) hl (hlib.mul _ _ _ o1 (by intro h; rw [h] at o2; simp at o2; omega)) (nodes := a ++ b) (by simp) (AreNodes.append ha hb)
  refine ⟨g', r, ?_, a2, a3, by rw [a4, o2], ?_⟩
  · rw [mulNodes]
    simp only [hln, hsn]
    rw [partition_small _ (by simpa [circuitCutoff] using h2), partition_small _ (by simp only [circuitCutoff]; omega), if_pos ⟨rfl, rfl⟩, o1]
    exact a1
  · intro cells va vb hva hvb
    have la := hva.length_eq
    have lb := hvb.length_eq
    have hl' : longer va vb = va := by unfold longer; rw [if_neg (by omega)]
    have hs' : shorter va vb = vb := by unfold shorter; rw [if_neg (by omega)]
    refine ⟨_, ?_, a5 deg cells _ (holds_append hva hvb)⟩
    rw [mulImpl]
    simp only [hl', hs']
    rw [← la, ← lb, partition_small _ (by simpa [circuitCutoff] using h2), partition_small _ (by simp only [circuitCutoff]; omega), if_pos ⟨rfl, rfl⟩, o1]
    simp only [applyCircuit]
    rw [if_neg (by simp [la, lb])]
    rfl

/-- success of the encoding depends on the widths only -/
theorem encode_some {n m : Nat} {p00 p01 p10 p11 : List Nat}
    (h : ∃ e, encodeGradeschoolReduction false n m (List.replicate p00.length false) (List.replicate p01.length false)
      (List.replicate p10.length false) (List.replicate p11.length false) = some e ∧ e.length = k) :
    ∃ e, encodeGradeschoolReduction 0 n m p00 p01 p10 p11 = some e ∧ e.length = k := by
  obtain ⟨e, he, hk⟩ := h
  have := encode_map (fun _ : Nat => false) 0 n m p00 p01 p10 p11
  simp only [List.map_const'] at this
  rw [he] at this
  cases hq : encodeGradeschoolReduction 0 n m p00 p01 p10 p11 with
  | none => rw [hq] at this; cases this
  | some q =>
    rw [hq] at this
    refine ⟨q, rfl, ?_⟩
    simp only [Option.map_some, Option.some.injEq] at this
    rw [← hk, this]; simp

theorem mulNodes_split {io : Nat → FheOp → Prop} {lib : CircLib} (hlib : CircLibOk lib) {deg : Nat} (hdeg : 0 < deg) {a b : List Nat} {g : FGraph}
    (hab : b.length ≤ a.length) (h1 : 16 < b.length) (hcap : 2 * (b.length + a.length) < maxVars) (hl : Live g)
    (ha : AreNodes g .ggsw1 a) (hb : AreNodes g .ggsw1 b)
    (h00 : ∀ g, Live g → AreNodes g .ggsw1 a → AreNodes g .ggsw1 b →
      MulDone lib deg io .glwe (a.take ((a.length + 1) / 2)) (b.take ((b.length + 1) / 2)) g)
    (h01 : ∀ g, Live g → AreNodes g .ggsw1 a → AreNodes g .ggsw1 b →
      MulDone lib deg io .glwe (a.take ((a.length + 1) / 2)) (b.drop ((b.length + 1) / 2)) g)
    (h10 : ∀ g, Live g → AreNodes g .ggsw1 a → AreNodes g .ggsw1 b →
      MulDone lib deg io .glwe (a.drop ((a.length + 1) / 2)) (b.take ((b.length + 1) / 2)) g)
    (h11 : ∀ g, Live g → AreNodes g .ggsw1 a → AreNodes g .ggsw1 b →
      MulDone lib deg io .glwe (a.drop ((a.length + 1) / 2)) (b.drop ((b.length + 1) / 2)) g) :
    MulDone lib deg io .glwe a b g := by
  have hln : longerN a b = a := by unfold longerN; rw [if_neg (by omega)]
  have hsn : shorterN a b = b := by unfold shorterN; rw [if_neg (by omega)]
  have pa := partition_big a.length (by simp only [circuitCutoff]; omega)
  have pb := partition_big b.length (by simp only [circuitCutoff]; omega)
  obtain ⟨m1, m2⟩ := partition_mono a.length b.length (by simp only [circuitCutoff]; omega) hab
  obtain ⟨g1, p00, a1, s1, n1, l1, v1⟩ := h00 g hl ha hb
  obtain ⟨g2, p01, a2, s2, n2, l2, v2⟩ := h01 g1 s1.live (nodes_ext s1.ext ha) (nodes_ext s1.ext hb)
  have s12 := s1.trans s2
  obtain ⟨g3, p10, a3, s3, n3, l3, v3⟩ := h10 g2 s12.live (nodes_ext s12.ext ha) (nodes_ext s12.ext hb)
  have s13 := s12.trans s3
  obtain ⟨g4, p11, a4, s4, n4, l4, v4⟩ := h11 g3 s13.live (nodes_ext s13.ext ha) (nodes_ext s13.ext hb)
  have s14 := s13.trans s4
  simp only [List.length_take, List.length_drop] at l1 l2 l3 l4
  have red := fun (q00 q01 q10 q11 : List Bool) e00 e01 e10 e11 => C10_reduction a.length b.length hab hcap m1 m2 q00 q01 q10 q11 e00 e01 e10 e11
  rw [pa, pb] at red
  simp only at red
  have l1 : p00.length = (a.length + 1) / 2 + (b.length + 1) / 2 := by omega
  have l2 : p01.length = (a.length + 1) / 2 + b.length / 2 := by omega
  have l3 : p10.length = a.length / 2 + (b.length + 1) / 2 := by omega
  have l4 : p11.length = a.length / 2 + b.length / 2 := by omega
  obtain ⟨e, outs, r1, r2, r3, r4, _⟩ := red (List.replicate p00.length false) (List.replicate p01.length false)
    (List.replicate p10.length false) (List.replicate p11.length false) (by simpa using l1) (by simpa using l2) (by simpa using l3)
    (by simpa using l4)
  obtain ⟨enc, he, hel⟩ := encode_some ⟨e, r1, r2⟩
  have hne : p00 ≠ [] := by intro h; rw [h] at l1; simp at l1; omega
  have nn1 := nodes_ext (s2.trans (s3.trans s4)).ext n1
  have nn2 := nodes_ext (s3.trans s4).ext n2
  have nn3 := nodes_ext s4.ext n3
  have hencN : AreNodes g4 .glwe1 enc := by
    have e1 := encode_dflt 0 (p00.head hne) a.length b.length p00 p01 p10 p11
    rw [he] at e1
    intro n hn
    exact encode_mem (P := fun n => ∃ op, g4.weight n = some op ∧ opType op = some .glwe1) e1.symm (nn1 _ (List.head_mem hne)) nn1 nn2 nn3 n4 n hn
  obtain ⟨g5, enc', c1, s5, n5, l5, v5⟩ := convertAll_ok (io := io) hdeg .glwe1 .ggsw1 enc g4 s4.live hencN
  obtain ⟨g6, r, i1, s6, n6, l6, v6⟩ := insertLib_ok (d := deg) (io := io) (mode := .glwe) s5.live (hlib.red _ _ _ r3 (by intro h; rw [h] at r4; simp at r4; omega)) (nodes := enc') (by omega) n5
  refine ⟨g6, r, ?_, s14.trans (s5.trans s6), n6, by omega, ?_⟩
  · rw [mulNodes]
    simp only [hln, hsn]
    rw [pa, pb]
    simp only
    rw [if_neg (by omega), if_neg (by omega), dif_neg (by simp only [circuitCutoff]; omega)]
    simp only [a1, a2, a3, a4, he, c1, r3, i1]
  · intro cells va vb hva hvb
    have la := hva.length_eq
    have lb := hvb.length_eq
    have hl' : longer va vb = va := by unfold longer; rw [if_neg (by omega)]
    have hs' : shorter va vb = vb := by unfold shorter; rw [if_neg (by omega)]
    obtain ⟨q00, b1, w1⟩ := v1 cells _ _ (holds_take hva _) (holds_take hvb _)
    obtain ⟨q01, b2, w2⟩ := v2 cells _ _ (holds_ext s1.ext (holds_take hva _)) (holds_ext s1.ext (holds_drop hvb _))
    obtain ⟨q10, b3, w3⟩ := v3 cells _ _ (holds_ext s12.ext (holds_drop hva _)) (holds_ext s12.ext (holds_take hvb _))
    obtain ⟨q11, b4, w4⟩ := v4 cells _ _ (holds_ext s13.ext (holds_drop hva _)) (holds_ext s13.ext (holds_drop hvb _))
    have w1 := holds_ext (s2.trans (s3.trans s4)).ext w1
    have w2 := holds_ext (s3.trans s4).ext w2
    have w3 := holds_ext s4.ext w3
    obtain ⟨e', outs', t1, t2, t3, t4, _⟩ := red q00 q01 q10 q11 (by rw [← w1.length_eq, l1]) (by rw [← w2.length_eq, l2])
      (by rw [← w3.length_eq, l3]) (by rw [← w4.length_eq, l4])
    rw [r3] at t3
    cases t3
    have hh := encode_rel w1 w2 w3 w4 hne he t1
    have hh := v6 deg cells _ (v5 cells _ hh)
    refine ⟨_, ?_, hh⟩
    rw [mulImpl]
    simp only [hl', hs']
    rw [← la, ← lb, pa, pb]
    simp only
    rw [if_neg (by omega), if_neg (by omega), dif_neg (by simp only [circuitCutoff]; omega), b1, b2, b3, b4]
    simp only [t1, r3, applyCircuit]
    rw [if_neg (by omega)]
    rfl

theorem mulNodes_ok {io : Nat → FheOp → Prop} {lib : CircLib} (hlib : CircLibOk lib) {deg : Nat} (hdeg : 0 < deg) {n m : Nat} (hw : MulWidths n m) :
    ∀ (mode : MuxMode) (a b : List Nat) (g : FGraph), (mode = .glwe ∨ n ≤ 16 ∧ m ≤ 16) → a.length = n → b.length = m → Live g →
      AreNodes g .ggsw1 a → AreNodes g .ggsw1 b → MulDone lib deg io mode a b g := by
  induction hw with
  | @base n m h1 h2 h3 h4 =>
    intro mode a b g _ la lb hl ha hb
    by_cases h : b.length ≤ a.length
    · exact mulNodes_base hlib hl ha hb h (by omega) (by omega)
    · exact mulDone_swap (by omega) (mulNodes_base hlib hl hb ha (by omega) (by omega) (by omega))
  | @swap n m h _ ih =>
    intro mode a b g hmode la lb hl ha hb
    exact mulDone_swap (by omega) (ih mode b a g (hmode.imp id And.symm) lb la hl hb ha)
  | @split n m h1 h2 h3 h4 _ _ _ _ i1 i2 i3 i4 =>
    intro mode a b g hmode la lb hl ha hb
    have hmode : mode = .glwe := by rcases hmode with h | h; exact h; omega
    subst hmode
    have tk : ∀ {g : FGraph} {x : List Nat} (_ : AreNodes g .ggsw1 x) k, AreNodes g .ggsw1 (x.take k) := fun h k =>
      AreNodes.sub h fun _ hn => List.mem_of_mem_take hn
    have dr : ∀ {g : FGraph} {x : List Nat} (_ : AreNodes g .ggsw1 x) k, AreNodes g .ggsw1 (x.drop k) := fun h k =>
      AreNodes.sub h fun _ hn => List.mem_of_mem_drop hn
    apply mulNodes_split hlib hdeg (by omega) (by omega) (by omega) hl ha hb
    · intro g hl ha hb
      exact i1 _ _ _ g (Or.inl rfl) (by rw [List.length_take]; omega) (by rw [List.length_take]; omega) hl (tk ha _) (tk hb _)
    · intro g hl ha hb
      exact i2 _ _ _ g (Or.inl rfl) (by rw [List.length_take]; omega) (by rw [List.length_drop]; omega) hl (tk ha _) (dr hb _)
    · intro g hl ha hb
      exact i3 _ _ _ g (Or.inl rfl) (by rw [List.length_drop]; omega) (by rw [List.length_take]; omega) hl (dr ha _) (tk hb _)
    · intro g hl ha hb
      exact i4 _ _ _ g (Or.inl rfl) (by rw [List.length_drop]; omega) (by rw [List.length_drop]; omega) hl (dr ha _) (dr hb _)

/-- equal widths `c·2^j` with `c ≤ 16` -/
theorem mulWidths_pow (c j : Nat) (hc : 1 ≤ c) (hc' : c ≤ 16) (hcap : 4 * (c * 2 ^ j) < maxVars) : MulWidths (c * 2 ^ j) (c * 2 ^ j) := by
  induction j with
  | zero => exact .base (by omega) (by omega) (by omega) (by omega)
  | succ j ih =>
    have e : c * 2 ^ (j + 1) = 2 * (c * 2 ^ j) := by rw [Nat.pow_succ]; ring
    rw [e] at hcap ⊢
    have hpos : 1 ≤ c * 2 ^ j := Nat.mul_pos hc (Nat.two_pow_pos j)
    by_cases hs : 2 * (c * 2 ^ j) ≤ 16
    · exact .base (by omega) hs (by omega) hs
    · have i := ih (by omega)
      refine .split (by omega) (by omega) (Nat.le_refl _) (by omega) ?_ ?_ ?_ ?_
      · rw [show (2 * (c * 2 ^ j) + 1) / 2 = c * 2 ^ j by omega]; exact i
      · rw [show (2 * (c * 2 ^ j) + 1) / 2 = c * 2 ^ j by omega, show 2 * (c * 2 ^ j) / 2 = c * 2 ^ j by omega]; exact i
      · rw [show (2 * (c * 2 ^ j) + 1) / 2 = c * 2 ^ j by omega, show 2 * (c * 2 ^ j) / 2 = c * 2 ^ j by omega]; exact i
      · rw [show 2 * (c * 2 ^ j) / 2 = c * 2 ^ j by omega]; exact i

/-- both widths at most 32, and both or neither at most 16 -/
theorem mulWidths_32 {n m : Nat} (h1 : 1 ≤ n) (h2 : n ≤ 32) (h3 : 1 ≤ m) (h4 : m ≤ 32) (h : n ≤ 16 ↔ m ≤ 16) : MulWidths n m := by
  have key : ∀ {n m : Nat}, 17 ≤ n → n ≤ 32 → 17 ≤ m → m ≤ n → MulWidths n m := by
    intro n m h1 h2 h3 h4
    exact .split (by omega) (by omega) h4 (by simp only [maxVars]; omega) (.base (by omega) (by omega) (by omega) (by omega))
      (.base (by omega) (by omega) (by omega) (by omega)) (.base (by omega) (by omega) (by omega) (by omega))
      (.base (by omega) (by omega) (by omega) (by omega))
  by_cases hs : n ≤ 16
  · exact .base h1 hs h3 (by omega)
  · by_cases hnm : m ≤ n
    · exact key (by omega) h2 (by omega) hnm
    · exact .swap (by omega) (key (by omega) h4 (by omega) (by omega))

end Spf.Fluent
