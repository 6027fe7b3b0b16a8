import Verif.Model.Exec
import Verif.Spec.Machine
/-! The real instruction set meets the assumptions of the machine. -/
namespace Spf.Cpu
open Spf.Seq (Local)

theorem take_one {α} {l l' : List α} (h : l.take 1 = l'.take 1) : l.head? = l'.head? := by
  cases l <;> cases l' <;> simp_all

theorem span_head {vs vs' : List Reg} (h : vs.take 1 = vs'.take 1) (w : Nat) (o : Int) : span vs w o = span vs' w o := by
  cases vs with
  | nil => cases vs' with
    | nil => rfl
    | cons y ys => simp at h
  | cons x xs => cases vs' with
    | nil => simp at h
    | cons y ys => simp at h; subst h; cases x <;> rfl

theorem loadPlains_congr {m m' : View} : ∀ {l : List Nat}, (∀ a ∈ l, m a = m' a) → loadPlains m l = loadPlains m' l := by
  intro l
  induction l with
  | nil => intro _; rfl
  | cons a as ih =>
    intro h
    have h1 := h a (by simp)
    have h2 := ih (fun x hx => h x (by simp [hx]))
    simp only [loadPlains]; rw [h1, h2]

theorem loadCiphers_congr {m m' : View} : ∀ {l : List Nat}, (∀ a ∈ l, m a = m' a) → loadCiphers m l = loadCiphers m' l := by
  intro l
  induction l with
  | nil => intro _; rfl
  | cons a as ih =>
    intro h
    have h1 := h a (by simp)
    have h2 := ih (fun x hx => h x (by simp [hx]))
    simp only [loadCiphers]; rw [h1, h2]

theorem loadReg_congr {m m' : View} (w : Nat) {l : List Nat} (h : ∀ a ∈ l, m a = m' a) : loadReg m w l = loadReg m' w l := by
  cases l with
  | nil => rfl
  | cons a as =>
    have h1 := h a (by simp)
    have h2 : ∀ x ∈ as, m x = m' x := fun x hx => h x (by simp [hx])
    simp only [loadReg]; rw [h1, loadPlains_congr h2, loadCiphers_congr h2]

theorem storeBytes_error {v : Reg} : ∀ {l : List Nat} {i : Nat} {m m' : View} {e : Err}, (∀ a ∈ l, m a = m' a) →
    storeBytes v l i m = .error e → storeBytes v l i m' = .error e := by
  intro l
  induction l with
  | nil => intro i m m' e _ h; simp [storeBytes] at h
  | cons a as ih =>
    intro i m m' e hm h
    have h1 := hm a (by simp)
    simp only [storeBytes] at h ⊢
    rw [← h1]
    cases hb : storeByte v i with
    | error x => rw [hb] at h; exact h
    | ok b =>
      rw [hb] at h; dsimp only at h ⊢
      cases hma : m a with
      | none => rw [hma] at h; exact h
      | some y =>
        rw [hma] at h; dsimp only at h ⊢
        refine ih ?_ h
        intro x hx; by_cases hxa : x = a
        · simp [hxa]
        · simp only [hxa, if_false]; exact hm x (by simp [hx])

theorem storeBytes_ok {v : Reg} : ∀ {l : List Nat} {i : Nat} {m m' n : View}, (∀ a ∈ l, m a = m' a) →
    storeBytes v l i m = .ok n → ∃ n', storeBytes v l i m' = .ok n' ∧ (∀ a, m a = m' a → n a = n' a) := by
  intro l
  induction l with
  | nil => intro i m m' n _ h; simp only [storeBytes] at h ⊢; injection h with h; subst h; exact ⟨m', rfl, fun a h => h⟩
  | cons a as ih =>
    intro i m m' n hm h
    have h1 := hm a (by simp)
    simp only [storeBytes] at h ⊢
    rw [← h1]
    cases hb : storeByte v i with
    | error x => rw [hb] at h; simp at h
    | ok b =>
      rw [hb] at h; dsimp only at h ⊢
      cases hma : m a with
      | none => rw [hma] at h; simp at h
      | some y =>
        rw [hma] at h; dsimp only at h ⊢
        obtain ⟨n', h2, h3⟩ := ih (m' := fun x => if x = a then some b else m' x) (by
          intro x hx; by_cases hxa : x = a
          · simp [hxa]
          · simp only [hxa, if_false]; exact hm x (by simp [hx])) h
        refine ⟨n', h2, ?_⟩
        intro x hx; apply h3; by_cases hxa : x = a
        · simp [hxa]
        · simp only [hxa, if_false]; exact hx

theorem storeBytes_frame {v : Reg} : ∀ {l : List Nat} {i : Nat} {m n : View} {x : Nat},
    storeBytes v l i m = .ok n → x ∉ l → n x = m x := by
  intro l
  induction l with
  | nil => intro i m n x h _; simp only [storeBytes] at h; injection h with h; subst h; rfl
  | cons a as ih =>
    intro i m n x h hx
    simp only [storeBytes] at h
    cases hb : storeByte v i with
    | error y => rw [hb] at h; simp at h
    | ok b =>
      rw [hb] at h; dsimp only at h
      cases hma : m a with
      | none => rw [hma] at h; simp at h
      | some y =>
        rw [hma] at h; dsimp only at h
        rw [ih h (by intro hh; exact hx (by simp [hh]))]
        simp only [List.mem_cons, not_or] at hx
        simp [hx.1]

theorem exec_alu {i : Inst} (h1 : i.op ≠ .load) (h2 : i.op ≠ .store) (vs : List Reg) (m : View) :
    i.exec vs m = (match i.alu vs with | .error e => .error e | .ok o => .ok (o, m)) := by
  unfold Inst.exec
  split
  · rename_i h; exact absurd h h1
  · rename_i h; exact absurd h h2
  · rfl

theorem local_parasol : Local parasol Inst.key where
  access_key := by
    intro inst vs vs' h
    show inst.access vs = inst.access vs'
    unfold Inst.access
    split
    · rename_i hop; refine span_head ?_ _ _; simpa [Inst.key, hop] using h
    · rename_i hop; refine span_head ?_ _ _; simpa [Inst.key, hop] using h
    · rfl
  next_key := by
    intro inst pc vs vs' h
    show inst.next pc vs = inst.next pc vs'
    unfold Inst.next
    split
    · rename_i hop; have h' : vs.take 1 = vs'.take 1 := by simpa [Inst.key, hop] using h
      cases vs with
      | nil => cases vs' with
        | nil => rfl
        | cons y ys => simp at h'
      | cons x xs => cases vs' with
        | nil => simp at h'
        | cons y ys => simp at h'; subst h'; cases x <;> rfl
    · rename_i hop; have h' : vs.take 1 = vs'.take 1 := by simpa [Inst.key, hop] using h
      cases vs with
      | nil => cases vs' with
        | nil => rfl
        | cons y ys => simp at h'
      | cons x xs => cases vs' with
        | nil => simp at h'
        | cons y ys => simp at h'; subst h'; cases x <;> rfl
    · rfl
    · rfl
    · rfl
  exec_error := by
    intro inst vs l m m' e hacc hm h
    change inst.exec vs m = _ at h
    show inst.exec vs m' = _
    change inst.access vs = _ at hacc
    by_cases h1 : inst.op = .load
    · simp only [Inst.exec, h1, Inst.access] at h hacc ⊢
      rw [hacc] at h ⊢; dsimp only at h ⊢
      rw [← loadReg_congr _ hm]
      cases hl : loadReg m (inst.nat 2) l with
      | error x => rw [hl] at h; exact h
      | ok r => rw [hl] at h; simp at h
    · by_cases h2 : inst.op = .store
      · simp only [Inst.exec, h2, Inst.access] at h hacc ⊢
        split at h
        · rename_i hc; rw [if_pos hc]; exact h
        · rename_i hc; rw [if_neg hc]
          rw [hacc] at h ⊢; dsimp only at h ⊢
          cases hs : storeBytes (vs.getD 1 .default) l 0 m with
          | error x => rw [hs] at h; rw [storeBytes_error hm hs]; exact h
          | ok n => rw [hs] at h; simp at h
      · rw [exec_alu h1 h2] at h ⊢
        split at h
        · rename_i x hx; injection h with h; subst h; first | rw [hx] | rfl
        · simp at h
  exec_ok := by
    intro inst vs l m m' o n hacc hm h
    change inst.exec vs m = _ at h
    show ∃ n', inst.exec vs m' = _ ∧ _
    change inst.access vs = _ at hacc
    by_cases h1 : inst.op = .load
    · simp only [Inst.exec, h1, Inst.access] at h hacc ⊢
      rw [hacc] at h ⊢; dsimp only at h ⊢
      rw [← loadReg_congr _ hm]
      cases hl : loadReg m (inst.nat 2) l with
      | error x => rw [hl] at h; simp at h
      | ok r =>
        rw [hl] at h; dsimp only at h; injection h with h; injection h with ha hb; subst ha; subst hb
        exact ⟨m', rfl, hm⟩
    · by_cases h2 : inst.op = .store
      · simp only [Inst.exec, h2, Inst.access] at h hacc ⊢
        split at h
        · simp at h
        · rename_i hc; rw [if_neg hc]
          rw [hacc] at h ⊢; dsimp only at h ⊢
          cases hs : storeBytes (vs.getD 1 .default) l 0 m with
          | error x => rw [hs] at h; simp at h
          | ok n1 =>
            rw [hs] at h; dsimp only at h; injection h with h; injection h with ha hb; subst ha; subst hb
            obtain ⟨n', h3, h4⟩ := storeBytes_ok hm hs
            rw [h3]; exact ⟨n', rfl, fun a ha => h4 a (hm a ha)⟩
      · rw [exec_alu h1 h2] at h ⊢
        split at h
        · simp at h
        · rename_i x hx; injection h with h; injection h with ha hb; subst ha; subst hb
          exact ⟨m', rfl, hm⟩
  exec_frame := by
    intro inst vs l m o n a hacc h ha
    change inst.exec vs m = _ at h
    change inst.access vs = _ at hacc
    by_cases h1 : inst.op = .load
    · simp only [Inst.exec, h1, Inst.access] at h hacc
      rw [hacc] at h; dsimp only at h
      split at h
      · simp at h
      · injection h with h; injection h with _ hb; subst hb; rfl
    · by_cases h2 : inst.op = .store
      · simp only [Inst.exec, h2, Inst.access] at h hacc
        split at h
        · simp at h
        · rw [hacc] at h; dsimp only at h
          cases hs : storeBytes (vs.getD 1 .default) l 0 m with
          | error x => rw [hs] at h; simp at h
          | ok n1 =>
            rw [hs] at h; dsimp only at h; injection h with h; injection h with _ hb; subst hb
            exact storeBytes_frame hs ha
      · rw [exec_alu h1 h2] at h
        split at h
        · simp at h
        · injection h with h; injection h with _ hb; subst hb; rfl

end Spf.Cpu
