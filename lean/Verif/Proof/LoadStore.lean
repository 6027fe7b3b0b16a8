import Verif.Proof.Exec
import Mathlib.Tactic.Ring
/-! Stores followed by loads. -/
namespace Spf.Cpu

/-- what a store leaves at its addresses -/
theorem storeBytes_at {v : Reg} : ∀ (k b i : Nat) (m m' : View), storeBytes v (List.range' b k) i m = .ok m' →
    ∀ j, j < k → ∃ x, storeByte v (i + j) = .ok x ∧ m' (b + j) = some x := by
  intro k
  induction k with
  | zero => intro b i m m' _ j hj; omega
  | succ k ih =>
    intro b i m m' h j hj
    rw [List.range'_succ] at h
    simp only [storeBytes] at h
    cases hb : storeByte v i with
    | error e => rw [hb] at h; simp at h
    | ok x =>
      rw [hb] at h; dsimp only at h
      cases hm : m b with
      | none => rw [hm] at h; simp at h
      | some y =>
        rw [hm] at h; dsimp only at h
        by_cases hj0 : j = 0
        · subst hj0
          refine ⟨x, hb, ?_⟩
          rw [Nat.add_zero, storeBytes_frame h (by simp)]; simp
        · obtain ⟨x', h1, h2⟩ := ih _ _ _ _ h (j - 1) (by omega)
          refine ⟨x', ?_, ?_⟩
          · rw [← h1]; congr 1; omega
          · rw [← h2]; congr 1; omega

theorem storeBytes_total {v : Reg} : ∀ (k b i : Nat) (m : View), (∀ j, j < k → ∃ x, storeByte v (i + j) = .ok x) →
    (∀ j, j < k → m (b + j) ≠ none) → ∃ m', storeBytes v (List.range' b k) i m = .ok m' := by
  intro k
  induction k with
  | zero => intro b i m _ _; exact ⟨m, rfl⟩
  | succ k ih =>
    intro b i m h1 h2
    rw [List.range'_succ]
    simp only [storeBytes]
    obtain ⟨x, hx⟩ := h1 0 (by omega)
    rw [Nat.add_zero] at hx
    rw [hx]; dsimp only
    have := h2 0 (by omega); rw [Nat.add_zero] at this
    cases hm : m b with
    | none => exact absurd hm this
    | some y =>
      dsimp only
      apply ih
      · intro j hj; obtain ⟨x', hx'⟩ := h1 (j + 1) (by omega); exact ⟨x', by rw [← hx']; congr 1; omega⟩
      · intro j hj
        have := h2 (j + 1) (by omega)
        rw [if_neg (by omega)]
        rw [show b + 1 + j = b + (j + 1) by omega]; exact this

theorem loadPlains_eq {m : View} {f : Nat → BitVec 8} : ∀ (k b : Nat), (∀ j, j < k → m (b + j) = some (.plain (f j))) →
    loadPlains m (List.range' b k) = .ok ((List.range k).map f) := by
  intro k
  induction k generalizing f with
  | zero => intro b _; rfl
  | succ k ih =>
    intro b h
    rw [List.range'_succ, List.range_succ_eq_map]
    simp only [loadPlains, List.map_cons, List.map_map]
    have h0 := h 0 (by omega); rw [Nat.add_zero] at h0
    rw [h0]; dsimp only
    rw [ih (f := fun j => f (j + 1)) (b + 1) (by
      intro j hj; have := h (j + 1) (by omega); rw [← this]; congr 1; omega)]
    rfl

theorem loadCiphers_eq {m : View} {f : Nat → List Bool} : ∀ (k b : Nat), (∀ j, j < k → m (b + j) = some (.cipher (f j))) →
    loadCiphers m (List.range' b k) = .ok ((List.range k).flatMap f) := by
  intro k
  induction k generalizing f with
  | zero => intro b _; rfl
  | succ k ih =>
    intro b h
    rw [List.range'_succ, List.range_succ_eq_map]
    simp only [loadCiphers, List.flatMap_cons, List.flatMap_map]
    have h0 := h 0 (by omega); rw [Nat.add_zero] at h0
    rw [h0]; dsimp only
    rw [ih (f := fun j => f (j + 1)) (b + 1) (by
      intro j hj; have := h (j + 1) (by omega); rw [← this]; congr 1; omega)]

theorem loadReg_plain {m : View} {f : Nat → BitVec 8} (w k b : Nat) (hk : 0 < k) (h : ∀ j, j < k → m (b + j) = some (.plain (f j))) :
    loadReg m w (List.range' b k) = .ok (.plain (bytesVal ((List.range k).map f)) w) := by
  obtain ⟨k, rfl⟩ : ∃ k', k = k' + 1 := ⟨k - 1, by omega⟩
  have h1 := loadPlains_eq (f := f) (k + 1) b h
  rw [List.range'_succ] at h1 ⊢
  have h0 := h 0 (by omega); rw [Nat.add_zero] at h0
  simp only [loadPlains] at h1
  simp only [loadReg]
  rw [h0] at h1 ⊢; dsimp only at h1 ⊢
  split at h1
  · simp at h1
  · rename_i bs hbs
    injection h1 with h1; rw [h1]

theorem loadReg_cipher {m : View} {f : Nat → List Bool} (w k b : Nat) (hk : 0 < k) (h : ∀ j, j < k → m (b + j) = some (.cipher (f j))) :
    loadReg m w (List.range' b k) = .ok (.cipher ((List.range k).flatMap f)) := by
  obtain ⟨k, rfl⟩ : ∃ k', k = k' + 1 := ⟨k - 1, by omega⟩
  have h1 := loadCiphers_eq (f := f) (k + 1) b h
  rw [List.range'_succ] at h1 ⊢
  have h0 := h 0 (by omega); rw [Nat.add_zero] at h0
  simp only [loadCiphers] at h1
  simp only [loadReg]
  rw [h0] at h1 ⊢; dsimp only at h1 ⊢
  split at h1
  · simp at h1
  · rename_i bs hbs
    injection h1 with h1; rw [h1]

theorem bytesVal_digits (x : Nat) : ∀ k, bytesVal ((List.range k).map fun j => BitVec.ofNat 8 (x / 2 ^ (8 * j))) = x % 2 ^ (8 * k) := by
  intro k
  induction k generalizing x with
  | zero => simp [bytesVal, Nat.mod_one]
  | succ k ih =>
    rw [List.range_succ_eq_map]
    simp only [List.map_cons, List.map_map, bytesVal]
    have h := ih (x / 2 ^ 8)
    have e : (List.range k).map ((fun j => BitVec.ofNat 8 (x / 2 ^ (8 * j))) ∘ Nat.succ) =
        (List.range k).map (fun j => BitVec.ofNat 8 (x / 2 ^ 8 / 2 ^ (8 * j))) := by
      apply List.map_congr_left; intro j _
      simp only [Function.comp]
      rw [Nat.div_div_eq_div_mul, ← Nat.pow_add]; congr 3; simp only [Nat.succ_eq_add_one]; omega
    rw [e, h]
    simp only [Nat.mul_zero, Nat.pow_zero, Nat.div_one, BitVec.toNat_ofNat]
    have : (2 : Nat) ^ (8 * (k + 1)) = 2 ^ 8 * 2 ^ (8 * k) := by rw [← Nat.pow_add]; congr 1; omega
    rw [this, Nat.mod_mul]; rfl

theorem flatMap_slices (bits : List Bool) : ∀ k, 8 * k ≤ bits.length →
    (List.range k).flatMap (fun j => (bits.drop (8 * j)).take 8) = bits.take (8 * k) := by
  intro k
  induction k with
  | zero => intro _; simp
  | succ k ih =>
    intro h
    rw [List.range_succ, List.flatMap_append, ih (by omega)]
    simp only [List.flatMap_cons, List.flatMap_nil, List.append_nil]
    rw [show 8 * (k + 1) = 8 * k + 8 by omega, List.take_add]

end Spf.Cpu
