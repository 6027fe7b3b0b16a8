import Verif.Proof.BddLib
/-! A library of reduced ordered diagrams (Shannon expansion with a unique table), so that the theorems about reduced diagrams
are not vacuous. -/
namespace Spf.Fluent
open Spf.Spec Spf.Mux

/-- find or append an inner node -/
def mkNode (acc : List BddNode) (i lo hi : Nat) : List BddNode × Nat :=
  if lo = hi then (acc, lo)
  else
    match acc.findIdx? (· = ⟨i, lo, hi⟩) with
    | some j => (acc, j)
    | none => (acc ++ [⟨i, lo, hi⟩], acc.length)

/-- Shannon expansion with sharing -/
def canon (f : BddFn) : Nat → Nat → (Nat → Bool) → List BddNode → List BddNode × Nat
  | 0, _, pre, acc => (acc, if f pre then 1 else 0)
  | k + 1, i, pre, acc =>
    let lo := canon f k (i + 1) (setVar pre i false) acc
    let hi := canon f k (i + 1) (setVar pre i true) lo.1
    mkNode hi.1 i lo.2 hi.2

/-- A library of reduced ordered diagrams. -/
def canonLib : BddLib where
  nodes nv f :=
    let r := canon f nv 0 (fun _ => false) [⟨nv, 0, 0⟩, ⟨nv, 1, 1⟩]
    r.1.take (r.2 + 1)

/-- the records so far -/
structure AccOk (nv : Nat) (acc : List BddNode) : Prop where
  leaf0 : acc[0]? = some ⟨nv, 0, 0⟩
  leaf1 : acc[1]? = some ⟨nv, 1, 1⟩
  inner : InnerOk nv acc
  unique : ∀ (j j' : Nat) r, 2 ≤ j → 2 ≤ j' → acc[j]? = some r → acc[j']? = some r → j = j'
  ordered : ∀ (j c : Nat) r r', 2 ≤ j → 2 ≤ c → acc[j]? = some r → acc[c]? = some r' → (c = r.low ∨ c = r.high) → r.var < r'.var

/-- the variable of node `j` is at least `i` -/
def VarGe (acc : List BddNode) (j i : Nat) : Prop := ∀ r, 2 ≤ j → acc[j]? = some r → i ≤ r.var

theorem VarGe.append {acc more : List BddNode} {j i} (h : VarGe acc j i) (hj : j < acc.length) : VarGe (acc ++ more) j i := by
  intro r h2 hr
  rw [List.getElem?_append_left hj] at hr
  exact h r h2 hr

theorem bddVal_inner (l : List BddNode) (e : Nat → Bool) (j : Nat) (r : BddNode) (h1 : 2 ≤ j) (h2 : l[j]? = some r) (h3 : r.low < j ∧ r.high < j) :
    bddVal l e j = bif e r.var then bddVal l e r.high else bddVal l e r.low := by
  rw [bddVal, if_neg (by omega), if_neg (by omega)]; simp only [h2]; rw [dif_pos h3]

theorem mkNode_ok {nv : Nat} {acc : List BddNode} {i lo hi : Nat} (h : AccOk nv acc) (hl : lo < acc.length) (hh : hi < acc.length) (hi' : i < nv)
    (vl : VarGe acc lo (i + 1)) (vh : VarGe acc hi (i + 1)) :
    (∃ more, (mkNode acc i lo hi).1 = acc ++ more) ∧ AccOk nv (mkNode acc i lo hi).1 ∧ (mkNode acc i lo hi).2 < (mkNode acc i lo hi).1.length ∧
    VarGe (mkNode acc i lo hi).1 (mkNode acc i lo hi).2 i ∧
    ∀ env, bddVal (mkNode acc i lo hi).1 env (mkNode acc i lo hi).2 = bif env i then bddVal acc env hi else bddVal acc env lo := by
  unfold mkNode
  by_cases he : lo = hi
  · rw [if_pos he]
    refine ⟨⟨[], by simp⟩, h, hl, fun r h2 hr => by have := vl r h2 hr; omega, ?_⟩
    intro env; simp only [he]; cases env i <;> rfl
  · rw [if_neg he]
    cases hf : acc.findIdx? (· = ⟨i, lo, hi⟩) with
    | some j =>
      obtain ⟨hj, hp, -⟩ := List.findIdx?_eq_some_iff_getElem.1 hf
      simp only [decide_eq_true_eq] at hp
      have hg : acc[j]? = some ⟨i, lo, hi⟩ := by rw [List.getElem?_eq_getElem hj, hp]
      have h2 : 2 ≤ j := by
        rcases Nat.lt_or_ge j 2 with h' | h'
        · exfalso
          have : j = 0 ∨ j = 1 := by omega
          rcases this with rfl | rfl
          · rw [h.leaf0] at hg; cases hg; exact he rfl
          · rw [h.leaf1] at hg; cases hg; exact he rfl
        · exact h'
      refine ⟨⟨[], by simp⟩, h, hj, ?_, ?_⟩
      · intro r _ hr
        rw [hg] at hr; cases hr; exact Nat.le_refl _
      · intro env
        obtain ⟨c1, c2, _⟩ := h.inner j _ h2 hg
        rw [bddVal_inner _ _ _ _ h2 hg ⟨c1, c2⟩]
    | none =>
      have hn : ∀ (j : Nat), acc[j]? ≠ some ⟨i, lo, hi⟩ := by
        intro j hj
        have := List.findIdx?_eq_none_iff.1 hf _ (List.mem_of_getElem? hj)
        simp at this
      have hlen : 2 ≤ acc.length := (List.getElem?_eq_some_iff.1 h.leaf1).1
      have get : ∀ (j : Nat) r, (acc ++ [⟨i, lo, hi⟩])[j]? = some r → acc[j]? = some r ∨ (j = acc.length ∧ r = ⟨i, lo, hi⟩) := by
        intro j r hr
        rcases Nat.lt_or_ge j acc.length with h' | h'
        · rw [List.getElem?_append_left h'] at hr; exact Or.inl hr
        · rw [List.getElem?_append_right h'] at hr
          have hj' : j - acc.length = 0 := by
            by_contra hc
            rw [List.getElem?_eq_none (by simp; omega)] at hr; cases hr
          rw [hj'] at hr
          simp only [List.getElem?_cons_zero, Option.some.injEq] at hr
          exact Or.inr ⟨by omega, hr.symm⟩
      have hnew : (acc ++ [(⟨i, lo, hi⟩ : BddNode)])[acc.length]? = some ⟨i, lo, hi⟩ := by simp
      refine ⟨⟨[⟨i, lo, hi⟩], rfl⟩, ⟨?_, ?_, ?_, ?_, ?_⟩, by simp, ?_, ?_⟩
      · rw [List.getElem?_append_left (by omega)]; exact h.leaf0
      · rw [List.getElem?_append_left (by omega)]; exact h.leaf1
      · intro j r h2 hr
        rcases get j r hr with hr | ⟨rfl, rfl⟩
        · exact h.inner j r h2 hr
        · exact ⟨hl, hh, he, hi'⟩
      · intro j j' r h2 h2' hr hr'
        rcases get j r hr with hr | ⟨rfl, rfl⟩ <;> rcases get j' _ hr' with hr' | ⟨rfl, h''⟩
        · exact h.unique j j' r h2 h2' hr hr'
        · rw [h''] at hr; exact absurd hr (hn _)
        · exact absurd hr' (hn _)
        · rfl
      · intro j c r r' h2 hc hr hr' hch
        rcases get j r hr with hr | ⟨rfl, rfl⟩
        · have hcl : c < acc.length := by
            have := h.inner j r h2 hr
            have hj := (List.getElem?_eq_some_iff.1 hr).1
            rcases hch with rfl | rfl <;> omega
          rw [List.getElem?_append_left hcl] at hr'
          exact h.ordered j c r r' h2 hc hr hr' hch
        · simp only at hch ⊢
          rcases hch with rfl | rfl
          · rw [List.getElem?_append_left hl] at hr'
            have := vl r' hc hr'; omega
          · rw [List.getElem?_append_left hh] at hr'
            have := vh r' hc hr'; omega
      · intro r _ hr
        simp only at hr
        rw [hnew] at hr; cases hr; exact Nat.le_refl _
      · intro env
        simp only
        rw [bddVal_inner _ _ _ _ hlen hnew ⟨hl, hh⟩, bddVal_prefix _ _ _ _ hl, bddVal_prefix _ _ _ _ hh]

theorem canon_ok (nv : Nat) (f : BddFn) : ∀ (k i : Nat) (pre : Nat → Bool) (acc : List BddNode), i + k ≤ nv → AccOk nv acc →
    (∃ more, (canon f k i pre acc).1 = acc ++ more) ∧ AccOk nv (canon f k i pre acc).1 ∧ (canon f k i pre acc).2 < (canon f k i pre acc).1.length ∧
    VarGe (canon f k i pre acc).1 (canon f k i pre acc).2 i ∧
    ∀ env, bddVal (canon f k i pre acc).1 env (canon f k i pre acc).2 = f (mergeEnv pre env i k)
  | 0, i, pre, acc, _, hok => by
    have hlen : 2 ≤ acc.length := (List.getElem?_eq_some_iff.1 hok.leaf1).1
    have hv : (canon f 0 i pre acc).2 < 2 := by unfold canon; simp only; split <;> omega
    refine ⟨⟨[], by simp [canon]⟩, hok, Nat.lt_of_lt_of_le hv hlen, fun r h => by omega, ?_⟩
    intro env
    have : mergeEnv pre env i 0 = pre := by funext j; unfold mergeEnv; rw [if_neg (by omega)]
    rw [this]
    unfold canon; simp only
    cases f pre
    · rw [bddVal]; rfl
    · rw [bddVal]; rfl
  | k + 1, i, pre, acc, hik, hok => by
    obtain ⟨⟨m1, p1⟩, ok1, l1, g1, v1⟩ := canon_ok nv f k (i + 1) (setVar pre i false) acc (by omega) hok
    generalize hlo : canon f k (i + 1) (setVar pre i false) acc = lo at p1 ok1 l1 g1 v1
    obtain ⟨⟨m2, p2⟩, ok2, l2, g2, v2⟩ := canon_ok nv f k (i + 1) (setVar pre i true) lo.1 (by omega) ok1
    generalize hhi : canon f k (i + 1) (setVar pre i true) lo.1 = hi at p2 ok2 l2 g2 v2
    have hunf : canon f (k + 1) i pre acc = mkNode hi.1 i lo.2 hi.2 := by
      rw [← hhi, ← hlo]; rfl
    have e1 : ∀ b env, env i = b → mergeEnv (setVar pre i b) env (i + 1) k = mergeEnv pre env i (k + 1) := by
      intro b env he; funext j; unfold mergeEnv setVar
      by_cases hj : j = i
      · subst hj; rw [if_neg (by omega), if_pos rfl, if_pos (by omega)]; exact he.symm
      · by_cases h : i + 1 ≤ j ∧ j < i + 1 + k
        · rw [if_pos h, if_pos (by omega)]
        · rw [if_neg h, if_neg hj, if_neg (by omega)]
    have ll : lo.2 < hi.1.length := by rw [p2]; simp; omega
    obtain ⟨⟨m3, p3⟩, ok3, l3, g3, v3⟩ := mkNode_ok ok2 ll l2 (by omega) (by rw [p2]; exact g1.append l1) g2
    rw [hunf]
    refine ⟨⟨m1 ++ m2 ++ m3, by rw [p3, p2, p1]; simp⟩, ok3, l3, g3, ?_⟩
    intro env
    rw [v3]
    cases he : env i
    · rw [cond_false, p2, bddVal_prefix _ _ _ _ l1, v1, e1 _ _ he]
    · rw [cond_true, v2, e1 _ _ he]

/-- The unique-table library produces reduced ordered diagrams of the functions it is given. -/
theorem canonLib_ok : ∀ nv f, ReducedBdd nv (canonLib.nodes nv f) ∧ ∀ env, (∀ i, nv ≤ i → env i = false) → bddFn (canonLib.nodes nv f) env = f env := by
  intro nv f
  have hbase : AccOk nv [⟨nv, 0, 0⟩, ⟨nv, 1, 1⟩] := by
    have hno : ∀ (j : Nat) r, 2 ≤ j → ([⟨nv, 0, 0⟩, ⟨nv, 1, 1⟩] : List BddNode)[j]? ≠ some r := by
      intro j r hj hr
      rw [List.getElem?_eq_none (by simpa using hj)] at hr; cases hr
    exact ⟨rfl, rfl, fun j r h hr => absurd hr (hno j r h), fun j j' r h _ hr _ => absurd hr (hno j r h), fun j c r r' h _ hr _ _ => absurd hr (hno j r h)⟩
  obtain ⟨⟨m, p⟩, ok, l, -, v⟩ := canon_ok nv f nv 0 (fun _ => false) [⟨nv, 0, 0⟩, ⟨nv, 1, 1⟩] (by omega) hbase
  have henv : ∀ env, (∀ i, nv ≤ i → env i = false) → mergeEnv (fun _ => false) env 0 nv = env := by
    intro env he; funext j; unfold mergeEnv
    by_cases hj : j < nv
    · rw [if_pos (by omega)]
    · rw [if_neg (by omega), he j (by omega)]
  unfold canonLib
  simp only
  generalize hs : canon f nv 0 (fun _ => false) [⟨nv, 0, 0⟩, ⟨nv, 1, 1⟩] = s at p ok l v
  have get : ∀ (j : Nat) r, (s.1.take (s.2 + 1))[j]? = some r → s.1[j]? = some r := by
    intro j r hr
    rw [List.getElem?_take] at hr
    by_cases hj : j < s.2 + 1
    · rwa [if_pos hj] at hr
    · rw [if_neg hj] at hr; cases hr
  refine ⟨⟨⟨?_, ?_, fun j r h hr => ok.inner j r h (get j r hr)⟩, fun j j' r h h' hr hr' => ok.unique j j' r h h' (get _ _ hr) (get _ _ hr'),
    fun j c r r' h h' hr hr' => ok.ordered j c r r' h h' (get _ _ hr) (get _ _ hr')⟩, ?_⟩
  · rw [List.getElem?_take, if_pos (by omega)]; exact ok.leaf0
  · rw [List.getElem?_take]
    by_cases h : 1 < s.2 + 1
    · rw [if_pos h]; exact Or.inr ok.leaf1
    · rw [if_neg h]; exact Or.inl rfl
  · intro env he
    unfold bddFn
    have h1 : (s.1.take (s.2 + 1)).length = s.2 + 1 := by rw [List.length_take]; omega
    rw [h1, Nat.add_sub_cancel, ← bddVal_prefix (s.1.take (s.2 + 1)) (s.1.drop (s.2 + 1)) env s.2 (by omega), List.take_append_drop, v, henv env he]

end Spf.Fluent
