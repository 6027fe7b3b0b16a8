import Verif.Model.Stats
import Mathlib.Algebra.BigOperators.Group.List.Basic
import Mathlib.Tactic.Ring
import Mathlib.Tactic.FieldSimp
import Mathlib.Tactic.Linarith
/-! C99: running statistics and convex regions. -/
namespace Spf.Props
open Spf.Stats

/-- The mean of a list of samples. -/
def average (xs : List ℚ) : ℚ := xs.sum / (xs.length : ℚ)

/-- The sum of the squared deviations from `m`. -/
def squaredDev (m : ℚ) (xs : List ℚ) : ℚ := (xs.map (fun x => (x - m) ^ 2)).sum

/-- The population variance of a list of samples. -/
def populationVariance (xs : List ℚ) : ℚ := squaredDev (average xs) xs / (xs.length : ℚ)

theorem squaredDev_expand (m : ℚ) : ∀ xs : List ℚ,
    squaredDev m xs = (xs.map (fun x => x ^ 2)).sum - 2 * m * xs.sum + (xs.length : ℚ) * m ^ 2
  | [] => by simp [squaredDev]
  | x :: xs => by
    have ih := squaredDev_expand m xs
    simp only [squaredDev, List.map_cons, List.sum_cons, List.length_cons] at *
    rw [ih]; push_cast; ring

theorem squaredDev_append (m : ℚ) (xs ys : List ℚ) : squaredDev m (xs ++ ys) = squaredDev m xs + squaredDev m ys := by
  simp [squaredDev]

theorem squaredDev_nonneg (m : ℚ) : ∀ xs : List ℚ, 0 ≤ squaredDev m xs
  | [] => by simp [squaredDev]
  | x :: xs => by
    have ih := squaredDev_nonneg m xs
    simp only [squaredDev, List.map_cons, List.sum_cons] at *
    positivity

/-- What a state records about the samples seen so far. -/
def Records (s : Running) (xs : List ℚ) : Prop :=
  s.k = xs.length ∧ (xs ≠ [] → s.mean = average xs ∧ s.variance = squaredDev (average xs) xs)

theorem records_step {s : Running} {xs : List ℚ} (h : Records s xs) (x : ℚ) :
    Records (addSample s x) (xs ++ [x]) := by
  obtain ⟨hk, hm⟩ := h
  by_cases he : xs = []
  · subst he
    have : s.k = 0 := by simpa using hk
    refine ⟨by simp [addSample, this], fun _ => ?_⟩
    simp [addSample, this, average, squaredDev]
  · obtain ⟨h1, h2⟩ := hm he
    have hpos : 0 < xs.length := List.length_pos_iff.2 he
    have hk0 : s.k ≠ 0 := by omega
    have hn : (xs.length : ℚ) ≠ 0 := by exact_mod_cast hpos.ne'
    have hn1 : (xs.length : ℚ) + 1 ≠ 0 := by positivity
    have hs : addSample s x = ⟨s.mean + (x - s.mean) / ((s.k + 1 : Nat) : ℚ),
        s.variance + (x - s.mean) * (x - (s.mean + (x - s.mean) / ((s.k + 1 : Nat) : ℚ))), s.k + 1⟩ := by
      rw [addSample, if_neg hk0]
    refine ⟨by rw [hs]; simp [hk], fun _ => ?_⟩
    have hmean : (addSample s x).mean = average (xs ++ [x]) := by
      rw [hs]
      simp only [h1, hk, average, List.sum_append, List.length_append, List.sum_cons,
        List.sum_nil, List.length_cons, List.length_nil]
      push_cast
      field_simp
      ring
    refine ⟨hmean, ?_⟩
    have hv : (addSample s x).variance = s.variance + (x - s.mean) * (x - (addSample s x).mean) := by
      rw [hs]
    rw [hv, hmean, h2, h1, squaredDev_append, squaredDev_expand, squaredDev_expand]
    simp only [average, squaredDev, List.sum_append, List.length_append, List.map_cons, List.map_nil, List.sum_cons,
      List.sum_nil, List.length_cons, List.length_nil]
    push_cast
    generalize (List.map (fun x => x ^ 2) xs).sum = Q
    generalize xs.sum = S
    generalize (xs.length : ℚ) = n at *
    field_simp
    ring

theorem records_all : ∀ (ys : List ℚ) {s : Running} {xs : List ℚ}, Records s xs → Records (addAll s ys) (xs ++ ys)
  | [], _, _, h => by simpa [addAll] using h
  | y :: ys, s, xs, h => by
    have := records_all ys (records_step h y)
    simpa [addAll] using this

/-- C99: after any non-empty sequence of samples the reported mean is their mean and the reported variance their
population variance (in exact arithmetic). -/
theorem C99_running (xs : List ℚ) (h : xs ≠ []) :
    mean (addAll new xs) = average xs ∧ variance (addAll new xs) = populationVariance xs := by
  have := records_all xs (s := new) (xs := []) ⟨rfl, fun h => absurd rfl h⟩
  simp only [List.nil_append] at this
  obtain ⟨hk, hm⟩ := this
  obtain ⟨h1, h2⟩ := hm h
  exact ⟨h1, by rw [variance, h2, hk, populationVariance]⟩

example : mean (addAll new [1, 2, 4, 9]) = 4 ∧ variance (addAll new [1, 2, 4, 9]) = 19 / 2 := by
  obtain ⟨h1, h2⟩ := C99_running [1, 2, 4, 9] (by simp)
  rw [h1, h2]; norm_num [average, populationVariance, squaredDev]

/-- C99: the order in which the samples arrive does not matter. -/
theorem C99_order {xs ys : List ℚ} (h : xs.Perm ys) (hx : xs ≠ []) :
    mean (addAll new xs) = mean (addAll new ys) ∧ variance (addAll new xs) = variance (addAll new ys) := by
  have hy : ys ≠ [] := fun e => hx (by simpa [e] using h)
  obtain ⟨a, b⟩ := C99_running xs hx
  obtain ⟨c, d⟩ := C99_running ys hy
  have e1 : average xs = average ys := by rw [average, average, h.sum_eq, h.length_eq]
  refine ⟨by rw [a, c, e1], ?_⟩
  rw [b, d, populationVariance, populationVariance, e1, h.length_eq]
  congr 1
  exact (h.map _).sum_eq

example : variance (addAll new [3, 1]) = variance (addAll new [1, 3]) :=
  (C99_order (List.Perm.swap _ _ _) (by simp)).2

/-- C99: the variance is never negative, so its square root exists. -/
theorem C99_nonneg (xs : List ℚ) (h : xs ≠ []) : 0 ≤ variance (addAll new xs) := by
  rw [(C99_running xs h).2, populationVariance]
  refine div_nonneg ?_ (by positivity)
  exact squaredDev_nonneg _ _

example : (0 : ℚ) ≤ variance (addAll new [5, -7, 2]) := C99_nonneg _ (by simp)

/-- C99: a point lies in a polytope exactly when it satisfies every inequality, exactly when it violates none, and
the reported violations are exactly the inequalities that fail. -/
theorem C99_polytope (hs : List Half) (p : Point) :
    (polyInside hs p = true ↔ ∀ h ∈ hs, h.a.1 * p.x + h.a.2 * p.y ≤ h.b) ∧
    (polyInside hs p = true ↔ violations hs p = []) ∧
    (∀ h, h ∈ violations hs p ↔ h ∈ hs ∧ h.b < h.a.1 * p.x + h.a.2 * p.y) := by
  have h1 : polyInside hs p = true ↔ ∀ h ∈ hs, h.a.1 * p.x + h.a.2 * p.y ≤ h.b := by
    simp [polyInside, Half.inside]
  have h3 : ∀ h, h ∈ violations hs p ↔ h ∈ hs ∧ h.b < h.a.1 * p.x + h.a.2 * p.y := by
    intro h
    simp only [violations, List.mem_filterMap, Half.inside, decide_eq_true_eq]
    constructor
    · rintro ⟨a, ha, he⟩
      split at he
      · cases he
      · cases he; exact ⟨ha, by linarith⟩
    · rintro ⟨a, b⟩
      exact ⟨h, a, by rw [if_neg (by linarith)]⟩
  refine ⟨h1, ?_, h3⟩
  rw [h1, List.eq_nil_iff_forall_not_mem]
  constructor
  · intro a h hv
    have := (h3 h).1 hv
    linarith [a h this.1]
  · intro a h hh
    by_contra hc
    exact a h ((h3 h).2 ⟨hh, by linarith⟩)

example : polyInside [⟨(1, 0), 2⟩, ⟨(0, 1), 1⟩] ⟨2, 1⟩ = true ∧
    violations [⟨(1, 0), 2⟩, ⟨(0, 1), 1⟩] ⟨2, 3⟩ = [⟨(0, 1), 1⟩] := by decide +kernel

/-- C99: a polytope is convex. -/
theorem C99_convex (hs : List Half) (p q : Point) (t : ℚ) (h0 : 0 ≤ t) (h1 : t ≤ 1)
    (hp : polyInside hs p = true) (hq : polyInside hs q = true) :
    polyInside hs ⟨t * p.x + (1 - t) * q.x, t * p.y + (1 - t) * q.y⟩ = true := by
  rw [(C99_polytope hs _).1] at *
  intro h hh
  have a := mul_le_mul_of_nonneg_left (hp h hh) h0
  have b := mul_le_mul_of_nonneg_left (hq h hh) (by linarith : 0 ≤ 1 - t)
  show h.a.1 * (t * p.x + (1 - t) * q.x) + h.a.2 * (t * p.y + (1 - t) * q.y) ≤ h.b
  nlinarith

example : polyInside [⟨(1, 1), 4⟩] ⟨1 / 2 * 4 + (1 - 1 / 2) * 0, 1 / 2 * 0 + (1 - 1 / 2) * 4⟩ = true :=
  C99_convex [⟨(1, 1), 4⟩] ⟨4, 0⟩ ⟨0, 4⟩ (1 / 2) (by norm_num) (by norm_num) (by decide +kernel) (by decide +kernel)

end Spf.Props
