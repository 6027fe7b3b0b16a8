import Verif.Proof.Bits
import Verif.Spec.Shift
import Verif.Model.Shift
/-! Barrel shifter: layer-by-layer invariant. -/
namespace Spf.Shift
open Spf.Spec BddFn

theorem rotL_getD {α} (k : Nat) (l : List α) (d : α) (i : Nat) (hk : k ≤ l.length) (hi : i < l.length) :
    (rotL k l).getD i d = l.getD ((i + k) % l.length) d := by
  have hpos : 0 < l.length := by omega
  unfold rotL
  simp only [List.getD, List.getElem?_append, List.length_drop]
  split
  · rw [Nat.mod_eq_of_lt (by omega)]; simp [Nat.add_comm]
  · have : (i + k) % l.length = i - (l.length - k) := by
      rw [Nat.mod_eq_sub_mod (by omega), Nat.mod_eq_of_lt (by omega)]; omega
    rw [this, List.getElem?_take, if_pos (by omega)]

theorem rotR_getD {α} (k : Nat) (l : List α) (d : α) (i : Nat) (hk : k ≤ l.length) (hi : i < l.length) :
    (rotR k l).getD i d = l.getD ((i + (l.length - k)) % l.length) d := by
  unfold rotR; exact rotL_getD _ _ _ _ (by omega) hi

/-- Function-level meaning of a shift by `t` on a vector given by `a : Nat → Bool`, width `n`. -/
def shiftFn (n : Nat) (dir : Dir) (mode : Mode) (fill : Bool) (a : Nat → Bool) (t i : Nat) : Bool :=
  match mode, dir with
  | .rotation, .left => a ((i + t) % n)
  | .rotation, .right => a ((i + (n - t % n)) % n)
  | _, .left => if i + t < n then a (i + t) else fill
  | _, .right => if t ≤ i then a (i - t) else fill

theorem layer_length (n dir mode old sh sel l) : (layer n dir mode old sh sel l).length = n := by
  simp [layer]

theorem getD_map_range (f : Nat → BddFn) (n i : Nat) (h : i < n) (d) : ((List.range n).map f).getD i d = f i := by
  simp [List.getD, h]

theorem layer_eval (n : Nat) (dir : Dir) (mode : Mode) (old sel : BddFn) (sh : Nat) (res : List BddFn)
    (e : Nat → Bool) (a : Nat → Bool) (t : Nat) (fill : Bool) (hn : 0 < n)
    (hlen : res.length = n) (hmode : ¬ (mode = .arithmetic ∧ dir = .left))
    (hsh : sh ≤ n) (hshn : sh = n → n = 1)
    (hfill : mode = .logical → fill = false) (hfill2 : mode = .arithmetic → fill = old e)
    (hres : ∀ i, i < n → (res.getD i mkFalse) e = shiftFn n dir mode fill a t i) :
    ∀ i, i < n → ((layer n dir mode old sh sel res).getD i mkFalse) e =
      shiftFn n dir mode fill a (t + if sel e then sh else 0) i := by
  intro i hi
  unfold layer
  rw [getD_map_range _ _ _ hi]
  simp only [BddFn.ite]
  cases hs : sel e
  · simp [hres i hi]
  · simp only [cond_true, if_true]
    have hmod : sh % n ≤ res.length := by rw [hlen]; exact Nat.le_of_lt (Nat.mod_lt _ hn)
    have hll : i < res.length := by omega
    -- the shift modulo the width
    have hcase : (sh < n ∧ sh % n = sh) ∨ (sh = 1 ∧ n = 1 ∧ sh % n = 0) := by
      by_cases h : sh < n
      · exact Or.inl ⟨h, Nat.mod_eq_of_lt h⟩
      · have : sh = n := by omega
        have hn1 := hshn this
        right; subst hn1; subst this; simp
    cases dir
    · -- left
      have hm : (rotL (sh % n) res).getD i mkFalse e = shiftFn n .left mode fill a t ((i + sh % n) % n) := by
        rw [rotL_getD _ _ _ _ hmod hll, hlen]; exact hres _ (Nat.mod_lt _ hn)
      cases mode
      · -- logical
        simp only [shiftFn] at hm ⊢
        rw [hfill rfl] at hm ⊢
        by_cases hz : i ≥ n - sh
        · simp only [hz, decide_true, if_true, mkFalse]; rw [if_neg (by omega)]
        · rcases hcase with ⟨h1, h2⟩ | ⟨h1, h2, h3⟩
          · simp only [hz, decide_false, Bool.false_eq_true, if_false]
            rw [hm, h2, Nat.mod_eq_of_lt (by omega)]
            rw [show i + sh + t = i + (t + sh) by omega]
          · omega
      · -- rotation
        simp only [shiftFn] at hm ⊢
        rw [hm]
        congr 1
        rw [Nat.mod_add_mod, Nat.add_right_comm, Nat.add_mod_mod, Nat.add_assoc]
      · exact absurd ⟨rfl, rfl⟩ hmode
    · -- right
      have hm : (rotR (sh % n) res).getD i mkFalse e =
          shiftFn n .right mode fill a t ((i + (n - sh % n)) % n) := by
        rw [rotR_getD _ _ _ _ hmod hll, hlen]; exact hres _ (Nat.mod_lt _ hn)
      have hgt : sh ≤ i → (i + (n - sh % n)) % n = i - sh := by
        intro hsi
        rcases hcase with ⟨h1, h2⟩ | ⟨h1, h2, h3⟩
        · rw [h2, Nat.mod_eq_sub_mod (by omega), Nat.mod_eq_of_lt (by omega)]; omega
        · omega
      cases mode
      · simp only [shiftFn] at hm ⊢
        rw [hfill rfl] at hm ⊢
        by_cases hz : i < sh
        · simp only [hz, decide_true, if_true, mkFalse]; rw [if_neg (by omega)]
        · simp only [hz, decide_false, Bool.false_eq_true, if_false]
          rw [hm, hgt (by omega)]
          by_cases h : t ≤ i - sh
          · rw [if_pos h, if_pos (by omega), show i - sh - t = i - (t + sh) by omega]
          · rw [if_neg h, if_neg (by omega)]
      · simp only [shiftFn] at hm ⊢
        rw [hm]
        congr 1
        have h1 : sh % n < n := Nat.mod_lt _ hn
        have h2 : t % n < n := Nat.mod_lt _ hn
        rw [Nat.mod_add_mod, Nat.add_mod t sh n]
        generalize sh % n = x at *
        generalize t % n = y at *
        by_cases h : y + x < n
        · rw [Nat.mod_eq_of_lt h, show i + (n - x) + (n - y) = (i + (n - (y + x))) + n by omega, Nat.add_mod_right]
        · have hyx : (y + x) % n = y + x - n := by
            rw [Nat.mod_eq_sub_mod (by omega), Nat.mod_eq_of_lt (show y + x - n < n by omega)]
          rw [hyx, show i + (n - x) + (n - y) = i + (n - (y + x - n)) by omega]
      · simp only [shiftFn] at hm ⊢
        by_cases hz : i < sh
        · rw [if_pos hz, if_neg (by omega)]; exact (hfill2 rfl).symm
        · rw [if_neg hz, hm, hgt (by omega)]
          by_cases h : t ≤ i - sh
          · rw [if_pos h, if_pos (by omega), show i - sh - t = i - (t + sh) by omega]
          · rw [if_neg h, if_neg (by omega)]

theorem valBE_snoc (l : List Bool) (b : Bool) : valBE (l ++ [b]) = 2 * valBE l + bit b := by
  simp [valBE, Nat.add_comm]

theorem valBE_append (l r : List Bool) : valBE (l ++ r) = valBE l * 2 ^ r.length + valBE r := by
  simp [valBE, valLE_append]; rw [Nat.mul_comm]; omega

theorem valBE_lt (l : List Bool) : valBE l < 2 ^ l.length := by
  have := valLE_lt l.reverse; simpa [valBE] using this

theorem pow2_log2 {n : Nat} (h : isPow2 n = true) : 2 ^ Nat.log2 n = n := by
  simp [isPow2] at h; exact h.2

/-- Facts about the number of layers. -/
theorem ilog_facts (n : Nat) (hn : 0 < n) :
    n ≤ 2 ^ ilog2RoundedUp n ∧ (ilog2RoundedUp n = 0 → n = 1) ∧
    (0 < ilog2RoundedUp n → 2 ^ (ilog2RoundedUp n - 1) < n) ∧ (isPow2 n = true → 2 ^ ilog2RoundedUp n = n) := by
  have h1 := Nat.log2_self_le (n := n) (by omega)
  have h2 := Nat.lt_log2_self (n := n)
  unfold ilog2RoundedUp
  rw [if_neg (show ¬ n = 0 by omega)]
  by_cases hp : isPow2 n = true
  · have hp' := pow2_log2 hp
    rw [if_pos hp]
    generalize Nat.log2 n = L at *
    refine ⟨by omega, ?_, ?_, fun _ => hp'⟩
    · rintro rfl; simp at hp'; omega
    · intro hL
      obtain ⟨k, rfl⟩ : ∃ k, L = k + 1 := ⟨L - 1, by omega⟩
      have := Nat.pow_pos (n := k) (show 0 < 2 by omega)
      rw [Nat.pow_succ] at hp'
      rw [Nat.add_sub_cancel]; omega
  · rw [if_neg hp]
    have hne : 2 ^ Nat.log2 n ≠ n := by
      intro h; apply hp; unfold isPow2; rw [h]; simp; omega
    generalize Nat.log2 n = L at *
    refine ⟨by omega, by omega, ?_, fun h => absurd h hp⟩
    intro _; rw [Nat.add_sub_cancel]; omega

theorem used_facts (n : Nat) (hn : 0 < n) :
    0 < usedShiftBits n ∧ n ≤ 2 ^ usedShiftBits n ∧ (n = 1 ∨ 2 ^ (usedShiftBits n - 1) < n) := by
  obtain ⟨h1, h2, h3, _⟩ := ilog_facts n hn
  unfold usedShiftBits
  generalize ilog2RoundedUp n = L at *
  by_cases h : L = 0
  · have := h2 h; simp [h]; omega
  · simp [h]; omega

theorem rot_used (n : Nat) (hp : isPow2 n = true) : n ∣ 2 ^ usedShiftBits n := by
  have h0 : n ≠ 0 := by simp [isPow2] at hp; exact hp.1
  obtain ⟨h1, h2, _, h3⟩ := ilog_facts n (by omega)
  have h3 := h3 hp
  unfold usedShiftBits
  generalize ilog2RoundedUp n = L at *
  by_cases h : L = 0
  · have := h2 h; subst this; exact Nat.one_dvd _
  · simp [h]; rw [h3]; exact Nat.dvd_refl _

theorem fold_or (l : List BddFn) (c : BddFn) (e) : (l.foldl BddFn.or c) e = (c e || l.any (· e)) := by
  induction l generalizing c with
  | nil => simp
  | cons x l ih => simp [ih, BddFn.or, Bool.or_assoc]

theorem valBE_pos_of_any (l : List Bool) (h : l.any id = true) : 0 < valBE l := by
  have : ∀ l : List Bool, l.any id = true → 0 < valLE l := by
    intro l
    induction l with
    | nil => simp
    | cons b l ih =>
      intro h
      simp only [List.any_cons, id, Bool.or_eq_true] at h
      simp only [valLE_cons]
      rcases h with h | h
      · subst h; simp; omega
      · have := ih h; omega
  exact this _ (by rw [List.any_reverse]; exact h)

theorem valBE_zero_of_not_any (l : List Bool) (h : l.any id = false) : valBE l = 0 := by
  have : ∀ l : List Bool, l.any id = false → valLE l = 0 := by
    intro l
    induction l with
    | nil => simp
    | cons b l ih =>
      intro h
      simp only [List.any_cons, id, Bool.or_eq_false_iff] at h
      simp [ih h.2, h.1]
  exact this _ (by rw [List.any_reverse]; exact h)

/-- some excess shift bit is set -/
def anyB (s : List Bool) (used : Nat) : Bool := (List.range (s.length - used)).any (fun x => s.getD x false)

theorem any_congr' {α} {l : List α} {p q : α → Bool} (h : ∀ x ∈ l, p x = q x) : l.any p = l.any q := by
  induction l with
  | nil => rfl
  | cons x l ih => rw [List.any_cons, List.any_cons, h x (by simp), ih (fun y hy => h y (by simp [hy]))]

theorem anyB_eq (s : List Bool) (used : Nat) : anyB s used = (s.take (s.length - used)).any id := by
  have : s.take (s.length - used) = (List.range (s.length - used)).map (fun x => s.getD x false) := by
    apply List.ext_getElem
    · simp
    · intro i h1 h2
      simp at h1 h2
      simp [show i < s.length by omega]
  rw [this, List.any_map]; rfl

/-- Main evaluation theorem, in function form. -/
theorem bitshift_eval (a s : List Bool) (dir : Dir) (mode : Mode) (hn : 0 < a.length)
    (hs : usedShiftBits a.length ≤ s.length)
    (hrot : mode = .rotation → isPow2 a.length = true) (har : ¬ (mode = .arithmetic ∧ dir = .left))
    (hv : a.length + s.length < maxVars) :
    ∃ outs, bitshift a.length s.length dir mode = some outs ∧ outs.length = a.length ∧
      ∀ i, i < a.length → (outs.getD i mkFalse) (wires (a ++ s)) =
        shiftFn a.length dir mode (if mode = .logical then false else a.getD 0 false) (fun i => a.getD i false)
          (valBE s) i := by
  generalize hu : usedShiftBits a.length = used at *
  obtain ⟨u1, u2, u3⟩ := used_facts a.length hn
  rw [hu] at u1 u2 u3
  generalize he : wires (a ++ s) = e
  have ea : ∀ i, i < a.length → e i = a.getD i false := by
    intro i hi; rw [← he]; simp [wires, List.getD, List.getElem?_append, hi]
  have es : ∀ i, e (a.length + i) = s.getD i false := by
    intro i; rw [← he]; simp only [wires, List.getD]; rw [List.getElem?_append_right (by omega)]; simp
  generalize hfill : (if mode = .logical then false else a.getD 0 false) = fill
  -- split the shift wires
  let hib := s.take (s.length - used)
  let lo := s.drop (s.length - used)
  have hlo : lo.length = used := by simp [lo]; omega
  have hsplit : valBE s = valBE hib * 2 ^ used + valBE lo := by
    rw [← hlo, ← valBE_append, List.take_append_drop]
  -- layers
  have L : ∀ k, k ≤ used →
      let res := (List.range k).foldl (fun res i => layer a.length dir mode (var 0) (2 ^ (used - 1 - i))
        (var (a.length + (s.length - used + i))) res) ((List.range a.length).map var)
      res.length = a.length ∧ ∀ i, i < a.length → (res.getD i mkFalse) e =
        shiftFn a.length dir mode fill (fun i => a.getD i false) (valBE (lo.take k) * 2 ^ (used - k)) i := by
    intro k
    induction k with
    | zero =>
      intro _
      refine ⟨by simp, ?_⟩
      intro i hi
      simp only [List.range_zero, List.foldl_nil, List.take_zero]
      rw [getD_map_range _ _ _ hi]
      have h0 : valBE [] * 2 ^ (used - 0) = 0 := by simp [valBE]
      rw [h0]
      simp only [BddFn.var, ea i hi]
      cases mode <;> cases dir <;> simp [shiftFn, hi, Nat.mod_eq_of_lt hi]
    | succ k ih =>
      intro hk
      obtain ⟨l1, l2⟩ := ih (by omega)
      simp only [List.range_succ, List.foldl_append, List.foldl_cons, List.foldl_nil]
      generalize (List.range k).foldl (fun res i => layer a.length dir mode (var 0) (2 ^ (used - 1 - i))
        (var (a.length + (s.length - used + i))) res) ((List.range a.length).map var) = res at l1 l2 ⊢
      refine ⟨layer_length _ _ _ _ _ _ _, ?_⟩
      have hsh : 2 ^ (used - 1 - k) ≤ 2 ^ (used - 1) := Nat.pow_le_pow_right (by omega) (by omega)
      have hfacts : 2 ^ (used - 1 - k) ≤ a.length ∧ (2 ^ (used - 1 - k) = a.length → a.length = 1) := by
        rcases u3 with h | h
        · refine ⟨?_, fun _ => h⟩
          have : used = 1 := by rw [h] at hu; rw [← hu]; decide
          subst this; simp; omega
        · omega
      have := layer_eval a.length dir mode (var 0) (var (a.length + (s.length - used + k))) (2 ^ (used - 1 - k))
        res e (fun i => a.getD i false) (valBE (lo.take k) * 2 ^ (used - k)) fill hn l1 har hfacts.1 hfacts.2
        (by intro h; rw [← hfill]; simp [h])
        (by intro h; rw [← hfill]; simp only [h]; simp only [BddFn.var]; rw [ea 0 hn]; rfl)
        l2
      intro i hi
      rw [this i hi]
      congr 1
      have hsel : (var (a.length + (s.length - used + k))) e = lo.getD k false := by
        simp only [BddFn.var, es]; simp [lo, List.getD]
      rw [hsel]
      have hk' : k < lo.length := by omega
      rw [List.take_succ_eq_append_getElem hk', valBE_snoc, getD_eq_getElem _ _ _ hk']
      rw [show used - k = (used - (k + 1)) + 1 by omega, show used - 1 - k = used - (k + 1) by omega, Nat.pow_succ]
      cases lo[k]
      · simp; rw [Nat.mul_comm (2 ^ _) 2, ← Nat.mul_assoc]; rw [Nat.mul_comm (valBE _) 2]
      · simp; rw [Nat.add_mul, Nat.mul_comm (2 ^ _) 2, ← Nat.mul_assoc]; rw [Nat.mul_comm (valBE _) 2]; omega
  obtain ⟨l1, l2⟩ := L used (Nat.le_refl _)
  rw [List.take_of_length_le (by omega), Nat.sub_self, Nat.pow_zero, Nat.mul_one] at l2
  unfold bitshift
  simp only [hu]
  rw [if_neg (by omega), if_neg (by
    rintro ⟨h1, h2⟩; rw [hrot h1] at h2; exact absurd h2 (by decide)), if_neg har, if_neg (by omega),
    if_neg (by omega)]
  generalize (List.range used).foldl (fun res i => layer a.length dir mode (var 0) (2 ^ (used - 1 - i))
        (var (a.length + (s.length - used + i))) res) ((List.range a.length).map var) = res at l1 l2 ⊢
  by_cases hm : mode = .rotation
  · rw [if_neg (by simp [hm])]
    refine ⟨_, rfl, l1, ?_⟩
    intro i hi
    rw [l2 i hi]
    subst hm
    obtain ⟨q, hq⟩ := rot_used a.length (hrot rfl)
    rw [hu] at hq
    have hmod : valBE s % a.length = valBE lo % a.length := by
      rw [hsplit, hq, Nat.mul_comm, Nat.mul_assoc]; simp
    cases dir
    · simp only [shiftFn]; rw [Nat.add_mod, ← hmod, ← Nat.add_mod]
    · simp only [shiftFn]; rw [hmod]
  · rw [if_pos hm]
    refine ⟨_, rfl, by simp [l1], ?_⟩
    intro i hi
    have hany : ((List.range (s.length - used)).map fun x => var (a.length + x)).any (fun f => f e) = anyB s used := by
      simp only [List.any_map, anyB]
      apply any_congr'
      intro x hx
      simp [BddFn.var, es]
    simp only [List.getD, List.getElem?_map]
    have hres := l2 i hi
    simp only [List.getD] at hres
    have hi' : i < res.length := by omega
    simp only [List.getElem?_eq_getElem hi', Option.map_some, Option.getD_some] at hres ⊢
    simp only [BddFn.ite, fold_or, hany]
    have hfillE : (if mode = .logical then mkFalse else var 0 : BddFn) e = fill := by
      rw [← hfill]
      cases mode
      · simp [mkFalse]
      · exact absurd rfl hm
      · exact ea 0 hn
    rw [hfillE, hres]
    have hanyhi : anyB s used = hib.any id := anyB_eq s used
    rw [hanyhi]
    simp only [mkFalse, Bool.false_or]
    cases hh : hib.any id
    · simp only [cond_false]
      rw [hsplit, valBE_zero_of_not_any _ hh]; simp
    · simp only [cond_true]
      have hp := valBE_pos_of_any _ hh
      have hge : a.length ≤ valBE s := by
        rw [hsplit]
        have : 1 * 2 ^ used ≤ valBE hib * 2 ^ used := Nat.mul_le_mul_right _ hp
        omega
      cases mode
      · cases dir
        · simp only [shiftFn]; rw [if_neg (by omega)]
        · simp only [shiftFn]; rw [if_neg (by omega)]
      · exact absurd rfl hm
      · cases dir
        · simp only [shiftFn]; rw [if_neg (by omega)]
        · simp only [shiftFn]; rw [if_neg (by omega)]

end Spf.Shift
