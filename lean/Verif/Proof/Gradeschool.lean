import Verif.Proof.NBits
import Mathlib.Tactic.Ring
import Mathlib.Tactic.Linarith
/-! The six-section reduction adds its four operands. -/
namespace Spf.Mul
open BddFn Spf.Spec

/-- weighted sum -/
def sumW (S : Nat → Nat) : Nat → Nat
  | 0 => 0
  | r + 1 => sumW S r + 2 ^ r * S r

theorem sumW_add (S T : Nat → Nat) (r : Nat) : sumW (fun i => S i + T i) r = sumW S r + sumW T r := by
  induction r with
  | zero => rfl
  | succ r ih => simp only [sumW, ih]; ring

theorem sumW_congr {S T : Nat → Nat} : ∀ {r : Nat}, (∀ i, i < r → S i = T i) → sumW S r = sumW T r
  | 0, _ => rfl
  | r + 1, h => by rw [sumW, sumW, sumW_congr (r := r) (fun i hi => h i (by omega)), h r (by omega)]

theorem sumW_bits (l : List Bool) (off : Nat) : ∀ r, off + r ≤ l.length →
    sumW (fun i => bit (l.getD (off + i) false)) r = valLE ((l.drop off).take r)
  | 0, _ => by simp [sumW]
  | r + 1, h => by
    rw [sumW, sumW_bits l off r (by omega), valLE_take_succ _ _ (by simp; omega)]
    simp [List.getD, Nat.mul_comm]

theorem section_sum (e : Nat → Bool) (step : Red → Nat → Red) (pend : Nat → Red → Nat) (S : Nat → Nat) (st : Red) :
    ∀ run, (∀ st i, i < run → ∃ d : BddFn, (step st i).outs = st.outs ++ [d] ∧
      bit (d e) + 2 * pend (i + 1) (step st i) = S i + pend i st) →
    ((List.range run).foldl step st).outs.length = st.outs.length + run ∧
    valLE (((List.range run).foldl step st).outs.map (· e)) +
      2 ^ (st.outs.length + run) * pend run ((List.range run).foldl step st) =
      valLE (st.outs.map (· e)) + 2 ^ st.outs.length * (pend 0 st + sumW S run)
  | 0, _ => by simp [sumW]
  | run + 1, h => by
    obtain ⟨h1, h2⟩ := section_sum e step pend S st run (fun st i hi => h st i (by omega))
    rw [List.range_succ, List.foldl_append, List.foldl_cons, List.foldl_nil]
    generalize (List.range run).foldl step st = st' at h1 h2
    obtain ⟨d, hd1, hd2⟩ := h st' run (by omega)
    rw [hd1]
    refine ⟨by simp [h1]; omega, ?_⟩
    rw [List.map_append, List.map_cons, List.map_nil, valLE_snoc, List.length_map, h1, sumW]
    rw [show st.outs.length + (run + 1) = st.outs.length + run + 1 by omega, Nat.pow_succ]
    have e2 : 2 ^ (st.outs.length + run) * (bit (d e) + 2 * pend (run + 1) (step st' run)) =
        2 ^ (st.outs.length + run) * (S run + pend run st') := by rw [hd2]
    have e3 : 2 ^ (st.outs.length + run) = 2 ^ st.outs.length * 2 ^ run := Nat.pow_add ..
    rw [e3] at h2 e2 ⊢
    linarith

/-- pending carry value -/
def pend (e : Nat → Bool) (st : Red) : Nat := bit (st.c0 e) + bit (st.c1 e) + 2 * bit (st.c2 e)

theorem sec2_step (e : Nat → Bool) (off : Nat) (st : Red) (i : Nat) :
    ∃ d : BddFn, (sec2 off st i).outs = st.outs ++ [d] ∧
      bit (d e) + 2 * bit ((sec2 off st i).c0 e) =
        bit (e (off + 2 * i)) + bit (e (off + 2 * i + 1)) + bit (st.c0 e) := by
  refine ⟨_, rfl, ?_⟩
  simp only [sec2, BddFn.or, BddFn.xor]
  rw [nBits_count e _ 2 (by simp) (by simp), nBits_count e _ 3 (by simp) (by simp)]
  simp only [List.map_cons, List.map_nil, BddFn.var]
  cases e (off + 2 * i) <;> cases e (off + 2 * i + 1) <;> cases st.c0 e <;> decide

theorem sec34_step (e : Nat → Bool) (off : Nat) (st : Red) (i : Nat) :
    ∃ d : BddFn, (sec34 off st i).outs = st.outs ++ [d] ∧
      bit (d e) + 2 * pend e (sec34 off st i) =
        bit (e (off + 3 * i)) + bit (e (off + 3 * i + 1)) + bit (e (off + 3 * i + 2)) + pend e st := by
  refine ⟨_, rfl, ?_⟩
  simp only [sec34, BddFn.or, BddFn.xor, pend]
  rw [nBits_count e _ 2 (by simp) (by simp), nBits_count e _ 3 (by simp) (by simp),
    nBits_count e _ 4 (by simp) (by simp), nBits_count e _ 5 (by simp) (by simp)]
  simp only [List.map_cons, List.map_nil, BddFn.var]
  cases e (off + 3 * i) <;> cases e (off + 3 * i + 1) <;> cases e (off + 3 * i + 2) <;> cases st.c0 e <;>
    cases st.c1 e <;> cases st.c2 e <;> decide

theorem sec5_step (e : Nat → Bool) (off : Nat) (st : Red) (i : Nat) :
    ∃ d : BddFn, (sec5 off st i).outs = st.outs ++ [d] ∧
      bit (d e) + 2 * pend e (sec5 off st i) =
        bit (e (off + 2 * i)) + bit (e (off + 2 * i + 1)) + pend e st := by
  refine ⟨_, rfl, ?_⟩
  simp only [sec5, BddFn.or, BddFn.xor, pend]
  rw [nBits_count e _ 2 (by simp) (by simp), nBits_count e _ 3 (by simp) (by simp),
    nBits_count e _ 4 (by simp) (by simp)]
  simp only [List.map_cons, List.map_nil, BddFn.var]
  cases e (off + 2 * i) <;> cases e (off + 2 * i + 1) <;> cases st.c0 e <;>
    cases st.c1 e <;> cases st.c2 e <;> decide

/-- pending carry before digit `i` of section 6 -/
def pend6 (e : Nat → Bool) : Nat → Red → Nat
  | 0, st => pend e st
  | 1, st => bit (st.c0 e) + bit (st.c1 e)
  | _ + 2, st => bit (st.c0 e)

theorem sec6_step (e : Nat → Bool) (off : Nat) (st : Red) (i : Nat) :
    ∃ d : BddFn, (sec6 off st i).outs = st.outs ++ [d] ∧
      bit (d e) + 2 * pend6 e (i + 1) (sec6 off st i) = bit (e (off + i)) + pend6 e i st := by
  match i with
  | 0 =>
    refine ⟨_, rfl, ?_⟩
    simp only [sec6, BddFn.or, BddFn.xor, pend, pend6, if_true]
    rw [nBits_count e _ 2 (by simp) (by simp), nBits_count e _ 3 (by simp) (by simp)]
    simp only [List.map_cons, List.map_nil, BddFn.var]
    cases e (off + 0) <;> cases st.c0 e <;> cases st.c1 e <;> cases st.c2 e <;> decide
  | 1 =>
    refine ⟨_, rfl, ?_⟩
    simp only [sec6, BddFn.or, BddFn.xor, pend6, if_true, Nat.one_ne_zero, if_false]
    rw [nBits_count e _ 2 (by simp) (by simp), nBits_count e _ 3 (by simp) (by simp)]
    simp only [List.map_cons, List.map_nil, BddFn.var]
    cases e (off + 1) <;> cases st.c0 e <;> cases st.c1 e <;> decide
  | i + 2 =>
    refine ⟨BddFn.xor (BddFn.var (off + (i + 2))) st.c0, ?_, ?_⟩
    · simp only [sec6]; rw [if_neg (by omega), if_neg (by omega)]
    · simp only [sec6, pend6]; rw [if_neg (by omega), if_neg (by omega)]
      simp only [BddFn.xor, BddFn.and, BddFn.var]
      cases e (off + (i + 2)) <;> cases st.c0 e <;> decide

theorem sec2_carries (off : Nat) : ∀ (l : List Nat) (st : Red),
    (l.foldl (sec2 off) st).c1 = st.c1 ∧ (l.foldl (sec2 off) st).c2 = st.c2
  | [], st => ⟨rfl, rfl⟩
  | i :: l, st => sec2_carries off l (sec2 off st i)

/-! ### reading the encoded operands -/

theorem getD_mid (A B C : List Bool) (p x : Nat) (hp : p = A.length) (h : x < B.length) :
    (A ++ B ++ C).getD (p + x) false = B.getD x false := by
  subst hp
  simp only [List.getD]
  rw [List.append_assoc, List.getElem?_append_right (by omega), Nat.add_sub_cancel_left,
    List.getElem?_append_left h]

theorem flatMap_length (k : Nat) (f : Nat → List Bool) (hf : ∀ i, (f i).length = k) : ∀ r,
    ((List.range r).flatMap f).length = k * r
  | 0 => by simp
  | r + 1 => by
    rw [List.range_succ, List.flatMap_append, List.length_append, flatMap_length k f hf r]
    simp [hf, Nat.mul_add]

theorem flatMap_getD (k : Nat) (f : Nat → List Bool) (hf : ∀ i, (f i).length = k) : ∀ r i j, i < r → j < k →
    ((List.range r).flatMap f).getD (k * i + j) false = (f i).getD j false
  | 0, _, _, h, _ => by omega
  | r + 1, i, j, hi, hj => by
    rw [List.range_succ, List.flatMap_append]
    simp only [List.getD]
    have hl := flatMap_length k f hf r
    by_cases h : i = r
    · subst h
      rw [List.getElem?_append_right (by omega), hl, Nat.add_sub_cancel_left]
      simp
    · have hlt : k * i + j < k * r := by
        have h3 : k * (i + 1) ≤ k * r := Nat.mul_le_mul_left k (by omega)
        rw [Nat.mul_add, Nat.mul_one] at h3; omega
      rw [List.getElem?_append_left (by omega)]
      exact flatMap_getD k f hf r i j (by omega) hj

theorem valLE_split (l : List Bool) (k : Nat) (h : k ≤ l.length) :
    valLE l = valLE (l.take k) + 2 ^ k * valLE (l.drop k) := by
  conv_lhs => rw [← List.take_append_drop k l]
  rw [valLE_append, List.length_take, Nat.min_eq_left h]

theorem valLE_split3 (l : List Bool) (i j k : Nat) (h : l.length = i + j + k) :
    valLE l = valLE ((l.drop 0).take i) + 2 ^ i * valLE ((l.drop i).take j) +
      2 ^ (i + j) * valLE ((l.drop (i + j)).take k) := by
  rw [valLE_split l i (by omega), valLE_split (l.drop i) j (by simp; omega), List.drop_drop, List.drop_zero,
    List.take_of_length_le (l := l.drop (i + j)) (by simp; omega), Nat.pow_add]
  ring

theorem final_arith (B D H G P V1 V15 V2 V3 V4 p1 p15 p2 p3 a1 a2 a3 b2 b3 b4 c3 c4 c5 d4 d5 d6 : Nat)
    (q1 : V1 + B * D * p1 = a1 + B * (0 + (a2 + b2)))
    (q2 : V15 + B * D * B * p15 = V1 + B * D * (p1 + (a3 + c3 + b3)))
    (q3 : V2 + B * D * B * H * p2 = V15 + B * D * B * (p15 + (c4 + b4 + d4)))
    (q4 : V3 + B * D * B * (H * G) * p3 = V2 + B * D * B * H * (p2 + (c5 + d5)))
    (q5 : V4 + B * D * (H * G) * (B * H) * P = V3 + B * D * B * (H * G) * (p3 + d6)) :
    V4 + B * D * (H * G) * (B * H) * P = a1 + B * a2 + B * D * a3 + B * (b2 + D * b3 + B * D * b4) +
      B * D * (c3 + B * c4 + B * H * c5) + B * D * B * (d4 + H * d5 + H * G * d6) := by
  linarith

/-- `reduceLoop` of the model with explicit lengths -/
theorem reduce_value (aLo aHi bLo bHi : Nat) (h1 : bLo ≤ aLo) (h2 : bHi ≤ aHi)
    (p00 p01 p10 p11 : List Bool) (l00 : p00.length = aLo + bLo) (l01 : p01.length = aLo + bHi)
    (l10 : p10.length = aHi + bLo) (l11 : p11.length = aHi + bHi) (e : Nat → Bool)
    (he1 : ∀ i, i < bLo → e i = p00.getD i false)
    (he2 : ∀ i, i < aLo - bLo → e (bLo + 2 * i) = p00.getD (bLo + i) false ∧ e (bLo + 2 * i + 1) = p01.getD i false)
    (he3 : ∀ i, i < bLo → e (bLo + 2 * (aLo - bLo) + 3 * i) = p00.getD (aLo + i) false ∧
      e (bLo + 2 * (aLo - bLo) + 3 * i + 1) = p10.getD i false ∧
      e (bLo + 2 * (aLo - bLo) + 3 * i + 2) = p01.getD (aLo - bLo + i) false)
    (he4 : ∀ i, i < bHi → e (bLo + 2 * (aLo - bLo) + 3 * (bLo + i)) = p10.getD (bLo + i) false ∧
      e (bLo + 2 * (aLo - bLo) + 3 * (bLo + i) + 1) = p01.getD (aLo + i) false ∧
      e (bLo + 2 * (aLo - bLo) + 3 * (bLo + i) + 2) = p11.getD i false)
    (he5 : ∀ i, i < aHi - bHi →
      e (bLo + 2 * (aLo - bLo) + 3 * (bLo + bHi) + 2 * i) = p10.getD (bLo + bHi + i) false ∧
      e (bLo + 2 * (aLo - bLo) + 3 * (bLo + bHi) + 2 * i + 1) = p11.getD (bHi + i) false)
    (he6 : ∀ i, i < bHi →
      e (bLo + 2 * (aLo - bLo) + 3 * (bLo + bHi) + 2 * (aHi - bHi) + i) = p11.getD (aHi + i) false) :
    let st : Red := ⟨(List.range bLo).map var, mkFalse, mkFalse, mkFalse⟩
    let off := bLo
    let st := (List.range (aLo - bLo)).foldl (sec2 off) st
    let off := off + 2 * (aLo - bLo)
    let st := (List.range (bLo + bHi)).foldl (sec34 off) st
    let off := off + 3 * (bLo + bHi)
    let st := (List.range (aHi - bHi)).foldl (sec5 off) st
    let off := off + 2 * (aHi - bHi)
    let st := (List.range bHi).foldl (sec6 off) st
    st.outs.length = aLo + aHi + (bLo + bHi) ∧
    ∃ c, valLE (st.outs.map (· e)) + 2 ^ (aLo + aHi + (bLo + bHi)) * c =
      valLE p00 + 2 ^ bLo * valLE p01 + 2 ^ aLo * valLE p10 + 2 ^ (aLo + bLo) * valLE p11 := by
  intro st0 off0 st1 off1 st2 off2 st3 off3 st4
  -- section 1
  have v1 : valLE (st0.outs.map (· e)) = valLE ((p00.drop 0).take bLo) := by
    congr 1
    apply List.ext_getElem
    · simp [st0]; omega
    · intro i h1 h2
      have hi : i < bLo := by simpa [st0] using h1
      have hl : i < p00.length := by omega
      simp only [st0, List.getElem_map, List.getElem_range, BddFn.var, he1 i hi, List.getElem_take, List.drop_zero]
      simp [List.getD, hl]
  have n0 : st0.outs.length = bLo := by simp [st0]
  -- section 2
  obtain ⟨n1, q1⟩ := section_sum e (sec2 off0) (fun _ st => bit (st.c0 e))
    (fun i => bit (p00.getD (bLo + i) false) + bit (p01.getD (0 + i) false)) st0 (aLo - bLo)
    (fun st i hi => by
      obtain ⟨d, a, b⟩ := sec2_step e off0 st i
      refine ⟨d, a, ?_⟩
      rw [b]; simp only [off0]; rw [(he2 i hi).1, (he2 i hi).2, Nat.zero_add])
  obtain ⟨c1', c2'⟩ := sec2_carries off0 (List.range (aLo - bLo)) st0
  change st1.outs.length = _ at n1
  change valLE (st1.outs.map (· e)) + 2 ^ (st0.outs.length + (aLo - bLo)) * bit (st1.c0 e) = _ at q1
  change st1.c1 = mkFalse at c1'
  change st1.c2 = mkFalse at c2'
  have hp1 : pend e st1 = bit (st1.c0 e) := by simp [pend, c1', c2', mkFalse]
  have hp0 : bit (st0.c0 e) = 0 := rfl
  rw [← hp1, n0, show bLo + (aLo - bLo) = aLo by omega, sumW_add, sumW_bits _ _ _ (by omega),
    sumW_bits _ _ _ (by omega)] at q1
  simp only [hp0] at q1
  rw [n0] at n1
  -- sections 3 and 4
  have split34 : st2 = (List.range bHi).foldl (fun st i => sec34 off1 st (bLo + i))
      ((List.range bLo).foldl (sec34 off1) st1) := by
    simp only [st2]
    rw [List.range_add, List.foldl_append, List.foldl_map]
  obtain ⟨n2, q2⟩ := section_sum e (sec34 off1) (fun _ st => pend e st)
    (fun i => bit (p00.getD (aLo + i) false) + bit (p10.getD (0 + i) false) + bit (p01.getD (aLo - bLo + i) false)) st1 bLo
    (fun st i hi => by
      obtain ⟨d, a, b⟩ := sec34_step e off1 st i
      refine ⟨d, a, ?_⟩
      rw [b]; simp only [off1, off0]; rw [(he3 i hi).1, (he3 i hi).2.1, (he3 i hi).2.2, Nat.zero_add])
  generalize (List.range bLo).foldl (sec34 off1) st1 = st15 at *
  obtain ⟨n3, q3⟩ := section_sum e (fun st i => sec34 off1 st (bLo + i)) (fun _ st => pend e st)
    (fun i => bit (p10.getD (bLo + i) false) + bit (p01.getD (aLo + i) false) + bit (p11.getD (0 + i) false)) st15 bHi
    (fun st i hi => by
      obtain ⟨d, a, b⟩ := sec34_step e off1 st (bLo + i)
      refine ⟨d, a, ?_⟩
      rw [b]; simp only [off1, off0]; rw [(he4 i hi).1, (he4 i hi).2.1, (he4 i hi).2.2, Nat.zero_add])
  rw [← split34] at n3 q3
  rw [sumW_add, sumW_add, sumW_bits _ _ _ (by omega), sumW_bits _ _ _ (by omega), sumW_bits _ _ _ (by omega)] at q2 q3
  -- section 5
  obtain ⟨n4, q4⟩ := section_sum e (sec5 off2) (fun _ st => pend e st)
    (fun i => bit (p10.getD (bLo + bHi + i) false) + bit (p11.getD (bHi + i) false)) st2 (aHi - bHi)
    (fun st i hi => by
      obtain ⟨d, a, b⟩ := sec5_step e off2 st i
      refine ⟨d, a, ?_⟩
      rw [b]; simp only [off2, off1, off0]; rw [(he5 i hi).1, (he5 i hi).2])
  change st3.outs.length = _ at n4
  change valLE (st3.outs.map (· e)) + 2 ^ (st2.outs.length + (aHi - bHi)) * pend e st3 = _ at q4
  rw [sumW_add, sumW_bits _ _ _ (by omega), sumW_bits _ _ _ (by omega)] at q4
  -- section 6
  obtain ⟨n5, q5⟩ := section_sum e (sec6 off3) (pend6 e) (fun i => bit (p11.getD (aHi + i) false)) st3 bHi
    (fun st i hi => by
      obtain ⟨d, a, b⟩ := sec6_step e off3 st i
      refine ⟨d, a, ?_⟩
      rw [b]; simp only [off3, off2, off1, off0]; rw [he6 i hi])
  change st4.outs.length = _ at n5
  change valLE (st4.outs.map (· e)) + 2 ^ (st3.outs.length + bHi) * pend6 e bHi st4 = _ at q5
  rw [sumW_bits _ _ _ (by omega)] at q5
  rw [show pend6 e 0 st3 = pend e st3 from rfl] at q5
  have m1 : st1.outs.length = aLo := by omega
  have m15 : st15.outs.length = aLo + bLo := by omega
  have m2 : st2.outs.length = aLo + bLo + bHi := by omega
  have m3 : st3.outs.length = aLo + bLo + aHi := by omega
  refine ⟨by omega, pend6 e bHi st4, ?_⟩
  rw [m3, show aLo + bLo + aHi + bHi = aLo + aHi + (bLo + bHi) by omega] at q5
  rw [m2, show aLo + bLo + bHi + (aHi - bHi) = aLo + bLo + aHi by omega] at q4
  rw [m15] at q3
  rw [m1] at q2
  rw [valLE_split3 p00 bLo (aLo - bLo) bLo (by omega), valLE_split3 p01 (aLo - bLo) bLo bHi (by omega),
    valLE_split3 p10 bLo bHi (aHi - bHi) (by omega), valLE_split3 p11 bHi (aHi - bHi) bHi (by omega)]
  rw [show bLo + (aLo - bLo) = aLo by omega, show aLo - bLo + bLo = aLo by omega,
    show bHi + (aHi - bHi) = aHi by omega]
  rw [v1] at q1
  have E1 : 2 ^ aLo = 2 ^ bLo * 2 ^ (aLo - bLo) := by rw [← Nat.pow_add]; congr 1; omega
  have E2 : 2 ^ aHi = 2 ^ bHi * 2 ^ (aHi - bHi) := by rw [← Nat.pow_add]; congr 1; omega
  simp only [Nat.pow_add, E1, E2] at q1 q2 q3 q4 q5 ⊢
  exact final_arith _ _ _ _ _ _ _ _ _ _ _ _ _ _ _ _ _ _ _ _ _ _ _ _ _ _ q1 q2 q3 q4 q5

end Spf.Mul
