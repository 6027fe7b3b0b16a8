import Verif.Proof.FluentMul
/-! C10: which widths can be multiplied. -/
namespace Spf.Props
open Spf.Spec Spf.Mul Spf.Fluent

theorem mulImpl_widths : ∀ (k : Nat) (a b r : List Bool), a.length + b.length = k → mulImpl a b = some r → MulWidths a.length b.length := by
  intro k
  induction k using Nat.strongRecOn with
  | _ k ih =>
    -- the operands in order
    have main : ∀ a b r : List Bool, a.length + b.length = k → b.length ≤ a.length → mulImpl a b = some r → MulWidths a.length b.length := by
      intro a b r hk hab h
      have hl : longer a b = a := by unfold longer; rw [if_neg (by omega)]
      have hs : shorter a b = b := by unfold shorter; rw [if_neg (by omega)]
      have h0 := h
      rw [mulImpl] at h
      simp only [hl, hs] at h
      by_cases ha : a.length ≤ 16
      · have pa := partition_small a.length (by simpa [circuitCutoff] using ha)
        have pb := partition_small b.length (by simp only [circuitCutoff]; omega)
        rw [pa, pb, if_pos ⟨rfl, rfl⟩] at h
        obtain ⟨outs, h1, _, _⟩ := applyCircuit_some h
        have : b.length ≠ 0 := by
          intro h0
          rw [C09_refusals _ _ (by omega)] at h1; cases h1
        exact .base (by omega) ha (by omega) (by omega)
      · by_cases hb : b.length ≤ 16
        · rw [(C10_unbalanced_violated a b (by simp only [circuitCutoff]; omega) (by simpa [circuitCutoff] using hb)).1] at h0
          cases h0
        · have pa := partition_big a.length (by simp only [circuitCutoff]; omega)
          have pb := partition_big b.length (by simp only [circuitCutoff]; omega)
          rw [pa, pb] at h
          simp only at h
          rw [if_neg (by omega), if_neg (by omega), dif_neg (by simp only [circuitCutoff]; omega)] at h
          cases h00 : mulImpl (a.take ((a.length + 1) / 2)) (b.take ((b.length + 1) / 2)) with
          | none => rw [h00] at h; cases h
          | some p00 =>
            cases h01 : mulImpl (a.take ((a.length + 1) / 2)) (b.drop ((b.length + 1) / 2)) with
            | none => rw [h00, h01] at h; cases h
            | some p01 =>
              cases h10 : mulImpl (a.drop ((a.length + 1) / 2)) (b.take ((b.length + 1) / 2)) with
              | none => rw [h00, h01, h10] at h; cases h
              | some p10 =>
                cases h11 : mulImpl (a.drop ((a.length + 1) / 2)) (b.drop ((b.length + 1) / 2)) with
                | none => rw [h00, h01, h10, h11] at h; cases h
                | some p11 =>
                  rw [h00, h01, h10, h11] at h
                  simp only at h
                  have hcap : 2 * (b.length + a.length) < maxVars := by
                    cases he : encodeGradeschoolReduction false a.length b.length p00 p01 p10 p11 with
                    | none => rw [he] at h; cases h
                    | some e =>
                      rw [he] at h
                      obtain ⟨outs, h1, _, _⟩ := applyCircuit_some h
                      by_contra hcon
                      unfold gradeschoolReduceImpl at h1
                      simp only at h1
                      rw [if_neg (by omega), if_pos (by omega)] at h1
                      cases h1
                  have e1 : (a.take ((a.length + 1) / 2)).length = (a.length + 1) / 2 := by rw [List.length_take]; omega
                  have e2 : (b.take ((b.length + 1) / 2)).length = (b.length + 1) / 2 := by rw [List.length_take]; omega
                  have e3 : (a.drop ((a.length + 1) / 2)).length = a.length / 2 := by rw [List.length_drop]; omega
                  have e4 : (b.drop ((b.length + 1) / 2)).length = b.length / 2 := by rw [List.length_drop]; omega
                  have i1 := ih _ (by omega) _ _ _ rfl h00
                  have i2 := ih _ (by omega) _ _ _ rfl h01
                  have i3 := ih _ (by omega) _ _ _ rfl h10
                  have i4 := ih _ (by omega) _ _ _ rfl h11
                  rw [e1, e2] at i1; rw [e1, e4] at i2; rw [e3, e2] at i3; rw [e3, e4] at i4
                  exact .split (by omega) (by omega) hab hcap i1 i2 i3 i4
    intro a b r hk h
    by_cases hab : b.length ≤ a.length
    · exact main a b r hk hab h
    · rw [mulImpl_swap (by omega)] at h
      exact .swap (by omega) (main b a r (by omega) (by omega) h)

theorem mulImpl_of_widths {n m : Nat} (hw : MulWidths n m) : ∀ a b : List Bool, a.length = n → b.length = m → ∃ r, mulImpl a b = some r := by
  induction hw with
  | @base n m h1 h2 h3 h4 => intro a b la lb; exact mul_base_ok a b (by omega) (by omega) (by omega) (by omega)
  | @swap n m h _ ih => intro a b la lb; rw [mulImpl_swap (by omega)]; exact ih b a lb la
  | @split n m h1 h2 h3 h4 _ _ _ _ i1 i2 i3 i4 =>
    intro a b la lb
    subst la lb
    have hl : longer a b = a := by unfold longer; rw [if_neg (by omega)]
    have hs : shorter a b = b := by unfold shorter; rw [if_neg (by omega)]
    have pa := partition_big a.length (by simp only [circuitCutoff]; omega)
    have pb := partition_big b.length (by simp only [circuitCutoff]; omega)
    obtain ⟨m1, m2⟩ := partition_mono a.length b.length (by simp only [circuitCutoff]; omega) h3
    have e1 : (a.take ((a.length + 1) / 2)).length = (a.length + 1) / 2 := by rw [List.length_take]; omega
    have e2 : (b.take ((b.length + 1) / 2)).length = (b.length + 1) / 2 := by rw [List.length_take]; omega
    have e3 : (a.drop ((a.length + 1) / 2)).length = a.length / 2 := by rw [List.length_drop]; omega
    have e4 : (b.drop ((b.length + 1) / 2)).length = b.length / 2 := by rw [List.length_drop]; omega
    obtain ⟨p00, q00⟩ := i1 _ _ e1 e2
    obtain ⟨p01, q01⟩ := i2 _ _ e1 e4
    obtain ⟨p10, q10⟩ := i3 _ _ e3 e2
    obtain ⟨p11, q11⟩ := i4 _ _ e3 e4
    have red := C10_reduction a.length b.length h3 h4 m1 m2 p00 p01 p10 p11
    rw [pa, pb] at red
    obtain ⟨e, outs, t1, t2, t3, t4, _⟩ := red (by rw [(C10_mul_sound _ _ _ q00).1, e1, e2]) (by rw [(C10_mul_sound _ _ _ q01).1, e1, e4])
      (by rw [(C10_mul_sound _ _ _ q10).1, e3, e2]) (by rw [(C10_mul_sound _ _ _ q11).1, e3, e4])
    rw [mulImpl]
    simp only [hl, hs]
    rw [pa, pb]
    simp only
    rw [if_neg (by omega), if_neg (by omega), dif_neg (by simp only [circuitCutoff]; omega), q00, q01, q10, q11]
    simp only [t1, t3, applyCircuit]
    rw [if_neg (by omega)]
    exact ⟨_, rfl⟩

/-- **C10, widths.** Two operands can be multiplied exactly if their widths satisfy `MulWidths`, and the product is then exact; otherwise building the product panics, whatever the operands. -/
theorem C10_widths (a b : List Bool) :
    (MulWidths a.length b.length → ∃ r, mulImpl a b = some r ∧ r.length = a.length + b.length ∧ Spec.valLE r = Spec.valLE a * Spec.valLE b) ∧
    (¬ MulWidths a.length b.length → mulImpl a b = none) := by
  refine ⟨fun h => ?_, fun h => ?_⟩
  · obtain ⟨r, hr⟩ := mulImpl_of_widths h a b rfl rfl
    exact ⟨r, hr, C10_mul_sound _ _ _ hr⟩
  · cases hr : mulImpl a b with
    | none => rfl
    | some r => exact absurd (mulImpl_widths _ a b r rfl hr) h

theorem mulImpl_comm {a b : List Bool} : mulImpl a b = mulImpl b a := by
  have sw : ∀ {n m : Nat}, MulWidths n m → MulWidths m n := by
    intro n m h
    rcases Nat.lt_trichotomy n m with hlt | rfl | hlt
    · obtain ⟨r, hr⟩ := mulImpl_of_widths h (List.replicate n false) (List.replicate m false) (by simp) (by simp)
      rw [mulImpl_swap (by simpa using hlt)] at hr
      simpa using mulImpl_widths _ _ _ _ rfl hr
    · exact h
    · exact .swap hlt h
  by_cases h : MulWidths a.length b.length
  · obtain ⟨r, h1, h2, h3⟩ := (C10_widths a b).1 h
    obtain ⟨r', h1', h2', h3'⟩ := (C10_widths b a).1 (sw h)
    rw [h1, h1']
    congr 1
    exact valLE_inj (by omega) (by rw [h3, h3', Nat.mul_comm])
  · rw [(C10_widths a b).2 h, (C10_widths b a).2 fun h' => h (sw h')]

/-- 64-bit operands can be multiplied, 33-bit operands cannot. -/
example : (∃ r, mulImpl (List.replicate 64 true) (List.replicate 64 true) = some r ∧ r.length = 128 ∧ Spec.valLE r = Spec.valLE (List.replicate 64 true) * Spec.valLE (List.replicate 64 true)) ∧
    mulImpl (List.replicate 33 true) (List.replicate 33 true) = none := by
  refine ⟨?_, ?_⟩
  · have := (C10_widths (List.replicate 64 true) (List.replicate 64 true)).1 (by
      rw [List.length_replicate]; exact mulWidths_pow 16 2 (by omega) (by omega) (by simp only [maxVars]; omega))
    simpa using this
  · exact C10_33_violated _ _ (by simp) (by simp)

end Spf.Props
