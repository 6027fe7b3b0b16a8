import Verif.Props.Fluent
import Verif.Spec.FluentProg
/-! Proofs about fluent programs. -/
namespace Spf.Fluent
open Spf.Spec Spf.Fhe Spf.Props Graph

/-! ### integers modulo a power of two -/

theorem intVal_wrap (s : Sign) (l : List Bool) : intVal s l = wrap s l.length (valLE l) := by
  have hlt := valLE_lt l
  cases s with
  | unsigned =>
    show (valLE l : Int) = (valLE l : Int) % 2 ^ l.length
    rw [Int.emod_eq_of_lt (by omega)]
    exact_mod_cast hlt
  | signed =>
    show valSigned l = Int.bmod (valLE l) (2 ^ l.length)
    by_cases h0 : l.length = 0
    · have : l = [] := List.eq_nil_of_length_eq_zero h0
      subst this; decide
    · rw [Cpu.valSigned_twos l (by omega)]
      unfold twos Int.bmod
      obtain ⟨k, hk⟩ : ∃ k, l.length = k + 1 := ⟨l.length - 1, by omega⟩
      rw [hk] at hlt ⊢
      have e1 : ((valLE l : Int)) % ((2 ^ (k + 1) : Nat) : Int) = valLE l := Int.emod_eq_of_lt (by omega) (by exact_mod_cast hlt)
      simp only [e1, Nat.add_sub_cancel]
      have e2 : (((2 ^ (k + 1) : Nat) : Int) + 1) / 2 = ((2 ^ k : Nat) : Int) := by
        rw [Nat.pow_succ]; omega
      rw [e2]
      split <;> split <;> first | (push_cast; rfl) | omega

theorem wrap_congr {s : Sign} {w : Nat} {x y : Int} (h : x % 2 ^ w = y % 2 ^ w) : wrap s w x = wrap s w y := by
  cases s with
  | unsigned => exact h
  | signed =>
    show Int.bmod x (2 ^ w) = Int.bmod y (2 ^ w)
    unfold Int.bmod
    have : x % ((2 ^ w : Nat) : Int) = y % ((2 ^ w : Nat) : Int) := by push_cast; exact h
    simp only [this]

theorem wrap_mod (s : Sign) (w : Nat) (x : Int) : wrap s w x % 2 ^ w = x % 2 ^ w := by
  cases s with
  | unsigned => exact Int.emod_emod_of_dvd _ (dvd_refl _)
  | signed =>
    show Int.bmod x (2 ^ w) % 2 ^ w = x % 2 ^ w
    have := Int.bmod_emod (x := x) (m := 2 ^ w)
    push_cast at this
    exact this

theorem intVal_mod (s : Sign) (l : List Bool) {w : Nat} (h : w ≤ l.length) : intVal s l % 2 ^ w = (valLE l : Int) % 2 ^ w := by
  have h1 := wrap_mod s l.length (valLE l)
  rw [← intVal_wrap] at h1
  have hd : (2 : Int) ^ w ∣ 2 ^ l.length := pow_dvd_pow 2 h
  rw [← Int.emod_emod_of_dvd (intVal s l) hd, h1, Int.emod_emod_of_dvd _ hd]

theorem intVal_of_mod {s : Sign} {l : List Bool} {x : Int} (h : (valLE l : Int) % 2 ^ l.length = x % 2 ^ l.length) :
    intVal s l = wrap s l.length x := by
  rw [intVal_wrap]; exact wrap_congr h

theorem intVal_inj {s : Sign} {a b : List Bool} (hl : a.length = b.length) : intVal s a = intVal s b ↔ valLE a = valLE b := by
  constructor
  · intro h
    have h1 := intVal_mod s a (le_refl _)
    have h2 := intVal_mod s b (le_refl _)
    rw [h, hl] at h1
    rw [h1] at h2
    have l1 := valLE_lt a
    have l2 := valLE_lt b
    rw [hl] at l1
    rw [Int.emod_eq_of_lt (by omega) (by exact_mod_cast l1), Int.emod_eq_of_lt (by omega) (by exact_mod_cast l2)] at h2
    omega
  · intro h; rw [valLE_inj hl h]

/-! ### arithmetic -/

theorem take_val (l : List Bool) (n : Nat) : valLE (l.take n) = valLE l % 2 ^ n := by
  rcases Nat.le_total n l.length with h | h
  · have := Mul.valLE_split l n h
    have hlt := valLE_lt (l.take n)
    rw [List.length_take, Nat.min_eq_left h] at hlt
    rw [this, Nat.add_mul_mod_self_left, Nat.mod_eq_of_lt hlt]
  · rw [List.take_of_length_le h, Nat.mod_eq_of_lt]
    exact Nat.lt_of_lt_of_le (valLE_lt l) (Nat.pow_le_pow_right (by omega) h)

theorem widthOk_iff {w : Nat} : widthOk w = true ↔ 0 < w ∧ 2 * w + 1 < maxVars := by unfold widthOk; simp

theorem zip_take_nodes {g : FGraph} {t} {a b : List Nat} (ha : AreNodes g t a) (hb : AreNodes g t b) : AreNodes g t (zipNodes a b) := by
  intro n hn
  rcases zipNodes_mem hn with h | h
  · exact ha n h
  · exact hb n h

theorem zip_holds_le {deg cells g t} {a b : List Nat} {va vb : List Bool} (ha : Holds deg cells g t a va) (hb : Holds deg cells g t b vb)
    (h : a.length ≤ b.length) : Holds deg cells g t (zipNodes a b) (interleave va (vb.take va.length)) := by
  rw [zipNodes_take, ← ha.length_eq]
  exact zipNodes_holds ha (holds_take hb _) (by simp; omega)

theorem add_ok {d : Nat} {io : Nat → FheOp → Prop} {lib : BddLib} (hlib : BddLibOk lib) {g : FGraph} (hl : Live g) {a b : List Nat} (ha : AreNodes g .ggsw1 a)
    (hb : AreNodes g .ggsw1 b) (hab : a.length ≤ b.length) (h0 : 0 < a.length) (hv : 2 * a.length + 1 < maxVars) (mode : MuxMode) :
    ∃ g' r, add lib a b mode g = some (g', r) ∧ Step d io g g' ∧ AreNodes g' (modeType mode) r ∧ r.length = a.length ∧
      ∀ deg cells va vb, Holds deg cells g .ggsw1 a va → Holds deg cells g .ggsw1 b vb →
        ∃ out, Holds deg cells g' (modeType mode) r out ∧ valLE out = (valLE va + valLE vb) % 2 ^ a.length := by
  obtain ⟨outs, ho, hlen, _⟩ := C01_adder (List.replicate a.length false) (List.replicate a.length false) false false
    (by simpa using h0) (by simpa using h0) (by simp; omega)
  simp only [List.length_replicate, Nat.max_self] at ho hlen
  obtain ⟨g', res, h1, h2, h3, h4, h5, hgd, h6⟩ := insertGen_ok (mode := mode) hlib hl (fs := outs) (nv := a.length + a.length)
    (by intro h; rw [h] at hlen; simp at hlen) (nodes := zipNodes a b) (by rw [zipNodes_length]; omega) (zip_take_nodes ha hb)
  refine ⟨g', res.take a.length, by simp only [add]; rw [ho, h1], ⟨⟨h2, h3⟩, hgd d io⟩, AreNodes.sub h4 fun n hm => List.mem_of_mem_take hm,
    by simp; omega, ?_⟩
  intro deg cells va vb hva hvb
  have l1 := hva.length_eq
  have l2 := hvb.length_eq
  refine ⟨_, holds_take (h6 deg cells _ (zip_holds_le hva hvb hab)) a.length, ?_⟩
  obtain ⟨outs', ho', _, hs⟩ := C01_adder va (vb.take va.length) false false (by omega) (by simp; omega) (by simp; omega)
  have lt : (vb.take va.length).length = a.length := by simp; omega
  rw [lt, ← l1, ho] at ho'
  cases ho'
  simp only [Bool.false_eq_true, if_false, List.nil_append, Nat.add_zero] at hs
  rw [take_val, ← l1] at hs ⊢
  rw [hs, Nat.add_mod_mod]

theorem sub_ok {d : Nat} {io : Nat → FheOp → Prop} {lib : BddLib} (hlib : BddLibOk lib) {g : FGraph} (hl : Live g) {a b : List Nat} (ha : AreNodes g .ggsw1 a)
    (hb : AreNodes g .ggsw1 b) (hab : a.length ≤ b.length) (h0 : 0 < a.length) (hv : 2 * a.length + 1 < maxVars) (mode : MuxMode) :
    ∃ g' r, sub lib a b mode g = some (g', r) ∧ Step d io g g' ∧ AreNodes g' (modeType mode) r ∧ r.length = a.length ∧
      ∀ deg cells va vb, Holds deg cells g .ggsw1 a va → Holds deg cells g .ggsw1 b vb →
        ∃ out, Holds deg cells g' (modeType mode) r out ∧ (valLE out : Int) = ((valLE va : Int) - valLE vb) % 2 ^ a.length := by
  obtain ⟨diff, bor, ho, hlen, _⟩ := C02_subtractor (List.replicate a.length false) (List.replicate a.length false) false false
    (by simp) (by simpa using h0) (by simp; omega)
  simp only [List.length_replicate] at ho hlen
  obtain ⟨g', res, h1, h2, h3, h4, h5, hgd, h6⟩ := insertGen_ok (mode := mode) hlib hl (fs := diff ++ [bor]) (nv := 2 * a.length)
    (by simp) (nodes := zipNodes a b) (by rw [zipNodes_length]; omega) (zip_take_nodes ha hb)
  simp only [List.length_append, List.length_singleton] at h5
  refine ⟨g', res.take a.length, by simp only [sub]; rw [ho, h1], ⟨⟨h2, h3⟩, hgd d io⟩, AreNodes.sub h4 fun n hm => List.mem_of_mem_take hm,
    by simp; omega, ?_⟩
  intro deg cells va vb hva hvb
  have l1 := hva.length_eq
  have l2 := hvb.length_eq
  refine ⟨_, holds_take (h6 deg cells _ (zip_holds_le hva hvb hab)) a.length, ?_⟩
  have lt : (vb.take va.length).length = a.length := by simp; omega
  obtain ⟨diff', bor', ho', hd', hs, _⟩ := C02_subtractor va (vb.take va.length) false false (by omega) (by omega) (by omega)
  rw [← l1, ho, Option.some.injEq] at ho'
  obtain ⟨rfl, hbb⟩ := List.append_inj ho' (by omega)
  simp only [Bool.false_eq_true, if_false, List.nil_append, Nat.cast_zero, Int.sub_zero] at hs
  rw [List.map_append, List.take_left' (by simp; omega), hs, ← l1, take_val]
  push_cast
  rw [Int.sub_emod, Int.emod_emod_of_dvd _ (dvd_refl _), ← Int.sub_emod]

/-! ### comparisons -/

theorem insertRel_ok {d : Nat} {io : Nat → FheOp → Prop} {lib : BddLib} (hlib : BddLibOk lib) {g : FGraph} (hl : Live g) {a b : List Nat} (ha : AreNodes g .ggsw1 a)
    (hb : AreNodes g .ggsw1 b) {gen : Nat → Option (List BddFn)} {R : List Bool → List Bool → Prop} {k : Nat} (hk : k = max b.length a.length)
    (hg : ∀ va vb : List Bool, va.length = k → vb.length = k → ∃ f, gen k = some [f] ∧ (f (wires (interleave va vb)) = true ↔ R va vb))
    (mode : MuxMode) :
    ∃ g' r, insertCmp lib gen a b mode g = some (g', r) ∧ Step d io g g' ∧ AreNodes g' (modeType mode) [r] ∧
      ∀ deg cells va vb, Holds deg cells g .ggsw1 a va → Holds deg cells g .ggsw1 b vb →
        ∃ c, FEval deg cells g' r (ctOf (modeType mode) c) ∧ (c = true ↔ R (padTo k va) (padTo k vb)) := by
  obtain ⟨f, hf, _⟩ := hg (List.replicate k false) (List.replicate k false) (by simp) (by simp)
  rw [hk] at hf
  obtain ⟨g', r, e1, e2, e3, e4⟩ := insertCmp_ok hlib hl ha hb hf mode
  refine ⟨g', r, e1, e2, e3, ?_⟩
  intro deg cells va vb hva hvb
  have l1 := hva.length_eq
  have l2 := hvb.length_eq
  refine ⟨_, e4 deg cells va vb hva hvb, ?_⟩
  rw [← l1, ← l2, ← hk]
  obtain ⟨f', hf', hs⟩ := hg (padTo k va) (padTo k vb) (padTo_length (by omega)) (padTo_length (by omega))
  rw [hk, hf] at hf'
  cases hf'
  exact hs

theorem pad_val {s : Sign} {a b : List Bool} (h : s = .signed → a.length = b.length) :
    intVal s (padTo (max b.length a.length) a) = intVal s a ∧ intVal s (padTo (max b.length a.length) b) = intVal s b := by
  cases s with
  | unsigned => exact ⟨by show ((valLE _ : Nat) : Int) = _; rw [padTo_val]; rfl, by show ((valLE _ : Nat) : Int) = _; rw [padTo_val]; rfl⟩
  | signed =>
    have := h rfl
    rw [padTo_self (l := a) (by omega), padTo_self (l := b) (by omega)]
    exact ⟨rfl, rfl⟩

theorem cmpSpec_iff (gt e : Bool) (x y : Int) : cmpSpec gt e x y ↔ cmpInt gt e x y = true := by
  cases gt <;> cases e <;> simp [cmpSpec, cmpInt]

theorem bool_eq_of_iff {c : Bool} {d : Bool} (h : c = true ↔ d = true) : c = d := by
  cases c <;> cases d <;> simp at h ⊢

theorem cmp_ok {d : Nat} {io : Nat → FheOp → Prop} {lib : BddLib} (hlib : BddLibOk lib) {g : FGraph} (hl : Live g) {a b : List Nat} (ha : AreNodes g .ggsw1 a)
    (hb : AreNodes g .ggsw1 b) {s : Sign} (hs : s = .signed → a.length = b.length) (h0 : 0 < max a.length b.length)
    (hv : 2 * max a.length b.length + 1 < maxVars) (gt e : Bool) (mode : MuxMode) :
    ∃ g' r, cmp lib s gt e a b mode g = some (g', r) ∧ Step d io g g' ∧ AreNodes g' (modeType mode) [r] ∧
      ∀ deg cells va vb, Holds deg cells g .ggsw1 a va → Holds deg cells g .ggsw1 b vb →
        FEval deg cells g' r (ctOf (modeType mode) (cmpInt gt e (intVal s va) (intVal s vb))) := by
  obtain ⟨g', r, e1, e2, e3, e4⟩ := insertRel_ok hlib hl ha hb (gen := fun n => genCompare s n gt e)
    (R := fun x y => cmpSpec gt e (intVal s x) (intVal s y)) rfl (by
      intro va vb h1 h2
      cases s with
      | unsigned =>
        obtain ⟨f, q1, q2⟩ := C06_unsigned_compare va vb gt e (by omega) (by omega) (by omega)
        rw [h1] at q1; exact ⟨f, q1, q2⟩
      | signed =>
        obtain ⟨f, q1, q2⟩ := C07_signed_compare va vb gt e (by omega) (by omega) (by omega)
        rw [h1] at q1; exact ⟨f, q1, q2⟩) mode
  refine ⟨g', r, e1, e2, e3, ?_⟩
  intro deg cells va vb hva hvb
  have l1 := hva.length_eq
  have l2 := hvb.length_eq
  obtain ⟨c, c1, c2⟩ := e4 deg cells va vb hva hvb
  obtain ⟨p1, p2⟩ := pad_val (s := s) (a := va) (b := vb) (by rw [← l1, ← l2]; exact hs)
  rw [l1, l2, p1, p2, cmpSpec_iff] at c2
  rwa [bool_eq_of_iff c2] at c1

theorem eq_ok {d : Nat} {io : Nat → FheOp → Prop} {lib : BddLib} (hlib : BddLibOk lib) {g : FGraph} (hl : Live g) {a b : List Nat} (ha : AreNodes g .ggsw1 a)
    (hb : AreNodes g .ggsw1 b) {s : Sign} (hs : s = .signed → a.length = b.length) (h0 : 0 < max a.length b.length)
    (hv : 2 * max a.length b.length + 1 < maxVars) (mode : MuxMode) :
    ∃ g' r, Fluent.eq lib a b mode g = some (g', r) ∧ Step d io g g' ∧ AreNodes g' (modeType mode) [r] ∧
      ∀ deg cells va vb, Holds deg cells g .ggsw1 a va → Holds deg cells g .ggsw1 b vb →
        FEval deg cells g' r (ctOf (modeType mode) (decide (intVal s va = intVal s vb))) := by
  obtain ⟨g', r, e1, e2, e3, e4⟩ := insertRel_ok hlib hl ha hb (gen := Arith.compareEqual)
    (R := fun x y => valLE x = valLE y) rfl (by
      intro va vb h1 h2
      obtain ⟨f, q1, q2⟩ := C05_equal va vb (by omega) (by omega) (by omega)
      rw [h1] at q1; exact ⟨f, q1, q2⟩) mode
  refine ⟨g', r, e1, e2, e3, ?_⟩
  intro deg cells va vb hva hvb
  have l1 := hva.length_eq
  have l2 := hvb.length_eq
  obtain ⟨c, c1, c2⟩ := e4 deg cells va vb hva hvb
  obtain ⟨p1, p2⟩ := pad_val (s := s) (a := va) (b := vb) (by rw [← l1, ← l2]; exact hs)
  rw [l1, l2, ← intVal_inj (s := s) (by rw [padTo_length (by omega), padTo_length (by omega)]), p1, p2] at c2
  rwa [bool_eq_of_iff (c := c) (d := decide (intVal s va = intVal s vb)) (by rw [decide_eq_true_iff]; exact c2)] at c1

theorem neq_ok {d : Nat} {io : Nat → FheOp → Prop} {lib : BddLib} (hlib : BddLibOk lib) {g : FGraph} (hl : Live g) {a b : List Nat} (ha : AreNodes g .ggsw1 a)
    (hb : AreNodes g .ggsw1 b) {s : Sign} (hs : s = .signed → a.length = b.length) (h0 : 0 < max a.length b.length)
    (hv : 2 * max a.length b.length + 1 < maxVars) (mode : MuxMode) :
    ∃ g' r, Fluent.neq lib a b mode g = some (g', r) ∧ Step d io g g' ∧ AreNodes g' (modeType mode) [r] ∧
      ∀ deg cells va vb, Holds deg cells g .ggsw1 a va → Holds deg cells g .ggsw1 b vb →
        FEval deg cells g' r (ctOf (modeType mode) (decide (intVal s va ≠ intVal s vb))) := by
  obtain ⟨g', r, e1, e2, e3, e4⟩ := insertRel_ok hlib hl ha hb (gen := Arith.compareNotEqual)
    (R := fun x y => valLE x ≠ valLE y) rfl (by
      intro va vb h1 h2
      obtain ⟨f, q1, q2⟩ := C05_not_equal va vb (by omega) (by omega) (by omega)
      rw [h1] at q1; exact ⟨f, q1, q2⟩) mode
  refine ⟨g', r, e1, e2, e3, ?_⟩
  intro deg cells va vb hva hvb
  have l1 := hva.length_eq
  have l2 := hvb.length_eq
  obtain ⟨c, c1, c2⟩ := e4 deg cells va vb hva hvb
  obtain ⟨p1, p2⟩ := pad_val (s := s) (a := va) (b := vb) (by rw [← l1, ← l2]; exact hs)
  rw [l1, l2, ne_eq, ← intVal_inj (s := s) (by rw [padTo_length (by omega), padTo_length (by omega)]), p1, p2] at c2
  rwa [bool_eq_of_iff (c := c) (d := decide (intVal s va ≠ intVal s vb)) (by rw [decide_eq_true_iff]; exact c2)] at c1

/-- one bit converted -/
theorem convert1_ok {deg : Nat} {io : Nat → FheOp → Prop} (hdeg : 0 < deg) (inT outT : CtType) {n : Nat} {g : FGraph} (hl : Live g) (hn : AreNodes g inT [n]) :
    ∃ g' m, Fhe.convert 5 g n inT outT = some (g', m) ∧ Step deg io g g' ∧ AreNodes g' outT [m] ∧
      ∀ cells b, FEval deg cells g n (ctOf inT b) → FEval deg cells g' m (ctOf outT b) := by
  obtain ⟨g', ms, h1, h2, h3, h4, h5⟩ := convertAll_ok hdeg inT outT [n] g hl hn
  simp only [convertAll] at h1
  cases hc : Fhe.convert 5 g n inT outT with
  | none => rw [hc] at h1; cases h1
  | some r =>
    obtain ⟨g1, m⟩ := r
    rw [hc] at h1
    cases h1
    refine ⟨_, m, rfl, h2, h3, ?_⟩
    intro cells b hb
    cases h5 cells [b] (.cons hb .nil) with
    | cons h _ => exact h

end Spf.Fluent
