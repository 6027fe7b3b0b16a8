import Verif.Spec.Fluent
/-! A decision-diagram library meeting the contract `BddLibOk` (Shannon expansion), so that the theorems about the fluent
integers are not vacuous. Nothing else depends on it. -/
namespace Spf.Fluent
open Spf.Spec Spf.Mux

/-- `pre` below `i`, unset from `i` on; variable `i` set to `b` -/
def setVar (pre : Nat → Bool) (i : Nat) (b : Bool) : Nat → Bool := fun j => if j = i then b else pre j

/-- Shannon expansion on `k` variables from variable `i`. -/
def shannon (f : BddFn) : Nat → Nat → (Nat → Bool) → List BddNode → List BddNode × Nat
  | 0, _, pre, acc => (acc, if f pre then 1 else 0)
  | k + 1, i, pre, acc =>
    let lo := shannon f k (i + 1) (setVar pre i false) acc
    let hi := shannon f k (i + 1) (setVar pre i true) lo.1
    if lo.2 = hi.2 then (hi.1, lo.2) else (hi.1 ++ [⟨i, lo.2, hi.2⟩], hi.1.length)

/-- A library computing diagrams by Shannon expansion. -/
def shannonLib : BddLib where
  nodes nv f :=
    let r := shannon f nv 0 (fun _ => false) [⟨nv, 0, 0⟩, ⟨nv, 1, 1⟩]
    if r.2 = 0 then [⟨nv, 0, 0⟩] else r.1

theorem bddVal_prefix (a b : List BddNode) (env : Nat → Bool) : ∀ (j : Nat), j < a.length → bddVal (a ++ b) env j = bddVal a env j := by
  intro j
  induction j using Nat.strongRecOn with
  | _ j ih =>
    intro hj
    rw [bddVal, bddVal]
    by_cases h0 : j = 0
    · rw [if_pos h0, if_pos h0]
    · by_cases h1 : j = 1
      · rw [if_neg h0, if_pos h1, if_neg h0, if_pos h1]
      · rw [if_neg h0, if_neg h1, if_neg h0, if_neg h1, List.getElem?_append_left hj]
        cases hr : a[j]? with
        | none => rfl
        | some r =>
          simp only
          by_cases hc : r.low < j ∧ r.high < j
          · rw [dif_pos hc, dif_pos hc, ih _ hc.1 (by omega), ih _ hc.2 (by omega)]
          · rw [dif_neg hc, dif_neg hc]

/-- inner records are well formed -/
def InnerOk (nv : Nat) (l : List BddNode) : Prop :=
  ∀ (j : Nat) r, 2 ≤ j → l[j]? = some r → r.low < j ∧ r.high < j ∧ r.low ≠ r.high ∧ r.var < nv

/-- the assignment the expansion stands for -/
def mergeEnv (pre env : Nat → Bool) (i k : Nat) : Nat → Bool := fun j => if i ≤ j ∧ j < i + k then env j else pre j

theorem shannon_ok (nv : Nat) (f : BddFn) : ∀ (k i : Nat) (pre : Nat → Bool) (acc : List BddNode), i + k ≤ nv → 2 ≤ acc.length → InnerOk nv acc →
    (∃ more, (shannon f k i pre acc).1 = acc ++ more) ∧ InnerOk nv (shannon f k i pre acc).1 ∧
    (((shannon f k i pre acc).2 < 2 ∧ (shannon f k i pre acc).1 = acc) ∨
      (acc.length ≤ (shannon f k i pre acc).2 ∧ (shannon f k i pre acc).2 + 1 = (shannon f k i pre acc).1.length)) ∧
    ∀ env, bddVal (shannon f k i pre acc).1 env (shannon f k i pre acc).2 = f (mergeEnv pre env i k)
  | 0, i, pre, acc, _, _, hok => by
    refine ⟨⟨[], by simp [shannon]⟩, hok, Or.inl ⟨?_, rfl⟩, ?_⟩
    · unfold shannon; simp only; split <;> omega
    · intro env
      have : mergeEnv pre env i 0 = pre := by funext j; unfold mergeEnv; rw [if_neg (by omega)]
      rw [this]
      unfold shannon; simp only
      cases f pre
      · rw [bddVal]; rfl
      · rw [bddVal]; rfl
  | k + 1, i, pre, acc, hik, hacc, hok => by
    obtain ⟨⟨m1, p1⟩, ok1, r1, v1⟩ := shannon_ok nv f k (i + 1) (setVar pre i false) acc (by omega) hacc hok
    generalize hlo : shannon f k (i + 1) (setVar pre i false) acc = lo at p1 ok1 r1 v1
    obtain ⟨⟨m2, p2⟩, ok2, r2, v2⟩ := shannon_ok nv f k (i + 1) (setVar pre i true) lo.1 (by omega) (by rw [p1]; simp; omega) ok1
    generalize hhi : shannon f k (i + 1) (setVar pre i true) lo.1 = hi at p2 ok2 r2 v2
    have hunf : shannon f (k + 1) i pre acc = if lo.2 = hi.2 then (hi.1, lo.2) else (hi.1 ++ [⟨i, lo.2, hi.2⟩], hi.1.length) := by
      rw [← hhi, ← hlo]; rfl
    have e1 : ∀ env, env i = false → mergeEnv (setVar pre i false) env (i + 1) k = mergeEnv pre env i (k + 1) := by
      intro env he; funext j; unfold mergeEnv setVar
      by_cases hj : j = i
      · subst hj; rw [if_neg (by omega), if_pos rfl, if_pos (by omega)]; exact he.symm
      · by_cases h : i + 1 ≤ j ∧ j < i + 1 + k
        · rw [if_pos h, if_pos (by omega)]
        · rw [if_neg h, if_neg hj, if_neg (by omega)]
    have e2 : ∀ env, env i = true → mergeEnv (setVar pre i true) env (i + 1) k = mergeEnv pre env i (k + 1) := by
      intro env he; funext j; unfold mergeEnv setVar
      by_cases hj : j = i
      · subst hj; rw [if_neg (by omega), if_pos rfl, if_pos (by omega)]; exact he.symm
      · by_cases h : i + 1 ≤ j ∧ j < i + 1 + k
        · rw [if_pos h, if_pos (by omega)]
        · rw [if_neg h, if_neg hj, if_neg (by omega)]
    have hl1 : acc.length ≤ lo.1.length := by rw [p1]; simp
    have hl2 : lo.1.length ≤ hi.1.length := by rw [p2]; simp
    have hlo2 : lo.2 < lo.1.length := by rcases r1 with ⟨a, b⟩ | ⟨a, b⟩ <;> omega
    have hhi2 : hi.2 < hi.1.length := by rcases r2 with ⟨a, b⟩ | ⟨a, b⟩ <;> omega
    have vlo : ∀ env, bddVal hi.1 env lo.2 = f (mergeEnv (setVar pre i false) env (i + 1) k) := by
      intro env; rw [p2, bddVal_prefix _ _ _ _ hlo2]; exact v1 env
    rw [hunf]
    by_cases heq : lo.2 = hi.2
    · rw [if_pos heq]
      have hlt : lo.2 < 2 := by
        rcases r1 with ⟨a, _⟩ | ⟨a, b⟩
        · exact a
        · rcases r2 with ⟨c, _⟩ | ⟨c, d⟩ <;> omega
      have hsame : hi.1 = acc := by
        rcases r1 with ⟨_, b⟩ | ⟨a, b⟩
        · rcases r2 with ⟨_, d⟩ | ⟨c, d⟩
          · rw [d, b]
          · omega
        · omega
      refine ⟨⟨[], by simp [hsame]⟩, ok2, Or.inl ⟨hlt, hsame⟩, ?_⟩
      intro env
      cases he : env i
      · rw [← e1 env he]; exact vlo env
      · rw [← e2 env he]; simp only; rw [heq]; exact v2 env
    · rw [if_neg heq]
      refine ⟨⟨m1 ++ m2 ++ [⟨i, lo.2, hi.2⟩], by simp [p2, p1]⟩, ?_, Or.inr ⟨by simp only; omega, by simp⟩, ?_⟩
      · intro j r hj hr
        rcases Nat.lt_or_ge j hi.1.length with h | h
        · rw [List.getElem?_append_left h] at hr
          exact ok2 j r hj hr
        · rw [List.getElem?_append_right h] at hr
          have hj' : j - hi.1.length = 0 := by
            by_contra hc
            rw [List.getElem?_eq_none (by simp; omega)] at hr; cases hr
          rw [hj'] at hr
          simp only [List.getElem?_cons_zero, Option.some.injEq] at hr
          subst hr
          refine ⟨?_, ?_, heq, ?_⟩ <;> simp only <;> omega
      · intro env
        simp only
        rw [bddVal, if_neg (by omega), if_neg (by omega), List.getElem?_append_right (Nat.le_refl _), Nat.sub_self]
        simp only [List.getElem?_cons_zero]
        rw [dif_pos ⟨by omega, hhi2⟩, bddVal_prefix _ _ _ _ hhi2, bddVal_prefix _ _ _ _ (by omega)]
        cases he : env i
        · rw [cond_false, vlo env, e1 env he]
        · rw [cond_true, v2 env, e2 env he]

theorem bddLibOk_shannon : BddLibOk shannonLib := by
  intro nv f
  have hbase : InnerOk nv [⟨nv, 0, 0⟩, ⟨nv, 1, 1⟩] := by
    intro j r hj hr
    rw [List.getElem?_eq_none (by simpa using hj)] at hr; cases hr
  obtain ⟨⟨m, p⟩, ok, r, v⟩ := shannon_ok nv f nv 0 (fun _ => false) [⟨nv, 0, 0⟩, ⟨nv, 1, 1⟩] (by omega) (by simp) hbase
  have henv : ∀ env, (∀ i, nv ≤ i → env i = false) → mergeEnv (fun _ => false) env 0 nv = env := by
    intro env he; funext j; unfold mergeEnv
    by_cases hj : j < nv
    · rw [if_pos (by omega)]
    · rw [if_neg (by omega), he j (by omega)]
  unfold shannonLib
  simp only
  generalize hs : shannon f nv 0 (fun _ => false) [⟨nv, 0, 0⟩, ⟨nv, 1, 1⟩] = s at p ok r v
  by_cases h0 : s.2 = 0
  · rw [if_pos h0]
    refine ⟨⟨rfl, Or.inl rfl, ?_⟩, ?_⟩
    · intro j r hj hr
      rw [List.getElem?_eq_none (by simp; omega)] at hr; cases hr
    · intro env he
      have := v env
      rw [henv env he, h0] at this
      rw [← this]
      unfold bddFn
      rw [bddVal, bddVal]; rfl
  · rw [if_neg h0]
    refine ⟨⟨by rw [p]; rfl, Or.inr (by rw [p]; rfl), ok⟩, ?_⟩
    intro env he
    have := v env
    rw [henv env he] at this
    rw [← this]
    unfold bddFn
    congr 1
    rcases r with ⟨a, b⟩ | ⟨a, b⟩
    · rw [b]; simp; omega
    · omega

end Spf.Fluent
