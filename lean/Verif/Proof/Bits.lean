import Verif.Spec.Bits
/-! Helper lemmas about bit lists. -/
namespace Spf.Spec

@[simp] theorem bit_false : bit false = 0 := rfl
@[simp] theorem bit_true : bit true = 1 := rfl
theorem bit_le (b : Bool) : bit b ≤ 1 := by cases b <;> decide
theorem bit_lt (b : Bool) : bit b < 2 := by cases b <;> decide
theorem bit_inj {a b : Bool} : bit a = bit b ↔ a = b := by cases a <;> cases b <;> decide
@[simp] theorem valLE_nil : valLE [] = 0 := rfl
@[simp] theorem valLE_cons (b : Bool) (l) : valLE (b :: l) = bit b + 2 * valLE l := rfl

theorem valLE_append (l r : List Bool) : valLE (l ++ r) = valLE l + 2 ^ l.length * valLE r := by
  induction l with
  | nil => simp
  | cons b l ih =>
    simp only [List.cons_append, valLE_cons, ih, List.length_cons, Nat.pow_succ]
    rw [Nat.mul_add, Nat.mul_comm (2 ^ l.length) 2, Nat.mul_assoc]; omega

theorem valLE_snoc (l : List Bool) (b : Bool) : valLE (l ++ [b]) = valLE l + bit b * 2 ^ l.length := by
  rw [valLE_append]; simp [Nat.mul_comm]

theorem valLE_lt (l : List Bool) : valLE l < 2 ^ l.length := by
  induction l with
  | nil => simp
  | cons b l ih => have := bit_lt b; simp only [valLE_cons, List.length_cons, Nat.pow_succ]; omega

theorem getD_eq_getElem (l : List Bool) (i : Nat) (d : Bool) (h : i < l.length) : l.getD i d = l[i] := by
  simp [List.getD, h]

theorem valLE_take_succ (l : List Bool) (i : Nat) (h : i < l.length) :
    valLE (l.take (i + 1)) = valLE (l.take i) + bit (l.getD i false) * 2 ^ i := by
  rw [List.take_succ_eq_append_getElem h, valLE_snoc, getD_eq_getElem _ _ _ h]
  simp [Nat.min_eq_left (Nat.le_of_lt h)]

theorem valLE_inj : ∀ {l r : List Bool}, l.length = r.length → valLE l = valLE r → l = r
  | [], [], _, _ => rfl
  | [], _ :: _, h, _ => by simp at h
  | _ :: _, [], h, _ => by simp at h
  | a :: l, b :: r, h, hv => by
    simp only [valLE_cons, List.length_cons, Nat.add_right_cancel_iff] at *
    have ha := bit_lt a; have hb := bit_lt b
    have h1 : bit a = bit b := by omega
    have h2 : valLE l = valLE r := by omega
    rw [bit_inj.1 h1, valLE_inj h h2]

theorem interleave_length : ∀ (a b : List Bool), (interleave a b).length = a.length + b.length
  | x :: xs, y :: ys => by simp [interleave, interleave_length xs ys]; omega
  | [], ys => by simp [interleave]
  | x :: xs, [] => by simp [interleave]

theorem interleave_even : ∀ (a b : List Bool) (i : Nat), i < a.length → i < b.length →
    (interleave a b).getD (2 * i) false = a.getD i false
  | x :: xs, y :: ys, 0, _, _ => by simp [interleave]
  | x :: xs, y :: ys, i + 1, h1, h2 => by
    simp only [interleave, Nat.mul_add, Nat.mul_one]
    have := interleave_even xs ys i (by simpa using h1) (by simpa using h2)
    simpa [List.getD] using this
  | [], _, _, h, _ => by simp at h
  | _ :: _, [], _, _, h => by simp at h

theorem interleave_odd : ∀ (a b : List Bool) (i : Nat), i < a.length → i < b.length →
    (interleave a b).getD (2 * i + 1) false = b.getD i false
  | x :: xs, y :: ys, 0, _, _ => by simp [interleave]
  | x :: xs, y :: ys, i + 1, h1, h2 => by
    simp only [interleave, Nat.mul_add, Nat.mul_one]
    have := interleave_odd xs ys i (by simpa using h1) (by simpa using h2)
    simpa [List.getD] using this
  | [], _, _, h, _ => by simp at h
  | _ :: _, [], _, _, h => by simp at h

theorem interleave_tail_left : ∀ (a b : List Bool) (i : Nat), b.length ≤ a.length → 
    (interleave a b).getD (2 * b.length + i) false = a.getD (b.length + i) false
  | x :: xs, y :: ys, i, h => by
    have := interleave_tail_left xs ys i (by simpa using h)
    simp only [interleave, List.length_cons]
    rw [show 2 * (ys.length + 1) + i = (2 * ys.length + i) + 1 + 1 by omega,
      show ys.length + 1 + i = (ys.length + i) + 1 by omega]
    simpa [List.getD] using this
  | [], [], i, _ => by simp [interleave]
  | [], _ :: _, _, h => by simp at h
  | x :: xs, [], i, _ => by simp [interleave]

theorem interleave_tail_right : ∀ (a b : List Bool) (i : Nat), a.length ≤ b.length → 
    (interleave a b).getD (2 * a.length + i) false = b.getD (a.length + i) false
  | x :: xs, y :: ys, i, h => by
    have := interleave_tail_right xs ys i (by simpa using h)
    simp only [interleave, List.length_cons]
    rw [show 2 * (xs.length + 1) + i = (2 * xs.length + i) + 1 + 1 by omega,
      show xs.length + 1 + i = (xs.length + i) + 1 by omega]
    simpa [List.getD] using this
  | [], _, i, _ => by simp [interleave]
  | _ :: _, [], _, h => by simp at h

end Spf.Spec
