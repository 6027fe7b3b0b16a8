import Verif.Model.CtMachine
import Verif.Proof.Exec
/-! The instruction set on ciphertexts meets the assumptions of the out-of-order machine. -/
namespace Spf.CtCpu
open Spf.Cpu Spf.Cells Spf.Seq

variable {α : Type}

theorem loadPlains_congr {m m' : VView α} : ∀ {l : List Nat}, (∀ a ∈ l, m a = m' a) → loadPlains m l = loadPlains m' l := by
  intro l
  induction l with
  | nil => intro _; rfl
  | cons a as ih =>
    intro h
    have h1 := h a (by simp)
    have h2 := ih (fun x hx => h x (by simp [hx]))
    simp only [loadPlains]; rw [h1, h2]

theorem loadCts_congr {m m' : VView α} : ∀ {l : List Nat}, (∀ a ∈ l, m a = m' a) → loadCts m l = loadCts m' l := by
  intro l
  induction l with
  | nil => intro _; rfl
  | cons a as ih =>
    intro h
    have h1 := h a (by simp)
    have h2 := ih (fun x hx => h x (by simp [hx]))
    simp only [loadCts]; rw [h1, h2]

theorem loadReg_congr {m m' : VView α} (w : Nat) {l : List Nat} (h : ∀ a ∈ l, m a = m' a) : loadReg m w l = loadReg m' w l := by
  cases l with
  | nil => rfl
  | cons a as =>
    have h1 := h a (by simp)
    have h2 : ∀ x ∈ as, m x = m' x := fun x hx => h x (by simp [hx])
    simp only [loadReg]; rw [h1, loadPlains_congr h2, loadCts_congr h2]

theorem storeBytes_error {v : VReg α} : ∀ {l : List Nat} {i : Nat} {m m' : VView α} {e : Err}, (∀ a ∈ l, m a = m' a) →
    storeBytes v l i m = .error e → storeBytes v l i m' = .error e := by
  intro l
  induction l with
  | nil => intro i m m' e _ h; simp [storeBytes] at h
  | cons a as ih =>
    intro i m m' e hm h
    have h1 := hm a (by simp)
    simp only [storeBytes] at h ⊢
    rw [← h1]
    cases hb : storeByte v i with
    | error x => rw [hb] at h; exact h
    | ok b =>
      rw [hb] at h; dsimp only at h ⊢
      cases hma : m a with
      | none => rw [hma] at h; exact h
      | some y =>
        rw [hma] at h; dsimp only at h ⊢
        refine ih ?_ h
        intro x hx; by_cases hxa : x = a
        · simp [hxa]
        · simp only [hxa, if_false]; exact hm x (by simp [hx])

theorem storeBytes_ok {v : VReg α} : ∀ {l : List Nat} {i : Nat} {m m' n : VView α}, (∀ a ∈ l, m a = m' a) →
    storeBytes v l i m = .ok n → ∃ n', storeBytes v l i m' = .ok n' ∧ (∀ a, m a = m' a → n a = n' a) := by
  intro l
  induction l with
  | nil => intro i m m' n _ h; simp only [storeBytes] at h ⊢; injection h with h; subst h; exact ⟨m', rfl, fun a h => h⟩
  | cons a as ih =>
    intro i m m' n hm h
    have h1 := hm a (by simp)
    simp only [storeBytes] at h ⊢
    rw [← h1]
    cases hb : storeByte v i with
    | error x => rw [hb] at h; simp at h
    | ok b =>
      rw [hb] at h; dsimp only at h ⊢
      cases hma : m a with
      | none => rw [hma] at h; simp at h
      | some y =>
        rw [hma] at h; dsimp only at h ⊢
        obtain ⟨n', h2, h3⟩ := ih (m' := fun x => if x = a then some b else m' x) (by
          intro x hx; by_cases hxa : x = a
          · simp [hxa]
          · simp only [hxa, if_false]; exact hm x (by simp [hx])) h
        refine ⟨n', h2, ?_⟩
        intro x hx; apply h3; by_cases hxa : x = a
        · simp [hxa]
        · simp only [hxa, if_false]; exact hx

theorem storeBytes_frame {v : VReg α} : ∀ {l : List Nat} {i : Nat} {m n : VView α} {x : Nat},
    storeBytes v l i m = .ok n → x ∉ l → n x = m x := by
  intro l
  induction l with
  | nil => intro i m n x h _; simp only [storeBytes] at h; injection h with h; subst h; rfl
  | cons a as ih =>
    intro i m n x h hx
    simp only [storeBytes] at h
    cases hb : storeByte v i with
    | error y => rw [hb] at h; simp at h
    | ok b =>
      rw [hb] at h; dsimp only at h
      cases hma : m a with
      | none => rw [hma] at h; simp at h
      | some y =>
        rw [hma] at h; dsimp only at h
        rw [ih h (by intro hh; exact hx (by simp [hh]))]
        simp only [List.mem_cons, not_or] at hx
        simp [hx.1]

theorem exec_alu (D : Dom α) {i : Inst} (h1 : i.op ≠ .load) (h2 : i.op ≠ .store) (vs : List (VReg α)) (m : VView α) :
    exec D i vs m = (match alu D i vs with | .error e => .error e | .ok o => .ok (o, m)) := by
  unfold exec
  split
  · rename_i h; exact absurd h h1
  · rename_i h; exact absurd h h2
  · rfl

theorem local_isa (D : Dom α) : Local (isa D) Inst.key where
  access_key := by
    intro inst vs vs' h
    exact local_parasol.access_key inst _ _ (by rw [← List.map_take, ← List.map_take, h])
  next_key := by
    intro inst pc vs vs' h
    exact local_parasol.next_key inst pc _ _ (by rw [← List.map_take, ← List.map_take, h])
  exec_error := by
    intro inst vs l m m' e hacc hm h
    change exec D inst vs m = _ at h
    show exec D inst vs m' = _
    change inst.access (vs.map VReg.shape) = _ at hacc
    by_cases h1 : inst.op = .load
    · simp only [exec, h1, Inst.access] at h hacc ⊢
      rw [hacc] at h ⊢; dsimp only at h ⊢
      rw [← loadReg_congr _ hm]
      cases hl : loadReg m (inst.nat 2) l with
      | error x => rw [hl] at h; exact h
      | ok r => rw [hl] at h; simp at h
    · by_cases h2 : inst.op = .store
      · simp only [exec, h2, Inst.access] at h hacc ⊢
        split at h
        · rename_i hc; rw [if_pos hc]; exact h
        · rename_i hc; rw [if_neg hc]
          rw [hacc] at h ⊢; dsimp only at h ⊢
          cases hs : storeBytes (vs.getD 1 (.plain 0 32)) l 0 m with
          | error x => rw [hs] at h; rw [storeBytes_error hm hs]; exact h
          | ok n => rw [hs] at h; simp at h
      · rw [exec_alu D h1 h2] at h ⊢
        split at h
        · rename_i x hx; injection h with h; subst h; first | rw [hx] | rfl
        · simp at h
  exec_ok := by
    intro inst vs l m m' o n hacc hm h
    change exec D inst vs m = _ at h
    show ∃ n', exec D inst vs m' = _ ∧ _
    change inst.access (vs.map VReg.shape) = _ at hacc
    by_cases h1 : inst.op = .load
    · simp only [exec, h1, Inst.access] at h hacc ⊢
      rw [hacc] at h ⊢; dsimp only at h ⊢
      rw [← loadReg_congr _ hm]
      cases hl : loadReg m (inst.nat 2) l with
      | error x => rw [hl] at h; simp at h
      | ok r =>
        rw [hl] at h; dsimp only at h; injection h with h; injection h with ha hb; subst ha; subst hb
        exact ⟨m', rfl, hm⟩
    · by_cases h2 : inst.op = .store
      · simp only [exec, h2, Inst.access] at h hacc ⊢
        split at h
        · simp at h
        · rename_i hc; rw [if_neg hc]
          rw [hacc] at h ⊢; dsimp only at h ⊢
          cases hs : storeBytes (vs.getD 1 (.plain 0 32)) l 0 m with
          | error x => rw [hs] at h; simp at h
          | ok n1 =>
            rw [hs] at h; dsimp only at h; injection h with h; injection h with ha hb; subst ha; subst hb
            obtain ⟨n', h3, h4⟩ := storeBytes_ok hm hs
            rw [h3]; exact ⟨n', rfl, fun a ha => h4 a (hm a ha)⟩
      · rw [exec_alu D h1 h2] at h ⊢
        split at h
        · simp at h
        · rename_i x hx; injection h with h; injection h with ha hb; subst ha; subst hb
          exact ⟨m', rfl, hm⟩
  exec_frame := by
    intro inst vs l m o n a hacc h ha
    change exec D inst vs m = _ at h
    change inst.access (vs.map VReg.shape) = _ at hacc
    by_cases h1 : inst.op = .load
    · simp only [exec, h1, Inst.access] at h hacc
      rw [hacc] at h; dsimp only at h
      split at h
      · simp at h
      · injection h with h; injection h with _ hb; subst hb; rfl
    · by_cases h2 : inst.op = .store
      · simp only [exec, h2, Inst.access] at h hacc
        split at h
        · simp at h
        · rw [hacc] at h; dsimp only at h
          cases hs : storeBytes (vs.getD 1 (.plain 0 32)) l 0 m with
          | error x => rw [hs] at h; simp at h
          | ok n1 =>
            rw [hs] at h; dsimp only at h; injection h with h; injection h with _ hb; subst hb
            exact storeBytes_frame hs ha
      · rw [exec_alu D h1 h2] at h
        split at h
        · simp at h
        · injection h with h; injection h with _ hb; subst hb; rfl


end Spf.CtCpu
