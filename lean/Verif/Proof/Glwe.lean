import Verif.Model.Glwe
import Verif.Proof.PowK
namespace Spf.Tfhe
open Spf.Spec
variable {R : Type} [CommRing R]

/-! ### LWE -/

theorem dotAcc_acc : ∀ (a s : List R) (c : R), dotAcc a s c = c + dotAcc a s 0
  | [], _, c => by simp [dotAcc]
  | _ :: _, [], c => by simp [dotAcc]
  | a :: as, s :: ss, c => by
    rw [dotAcc, dotAcc_acc as ss (c + a * s), dotAcc, dotAcc_acc as ss (0 + a * s)]; ring

theorem dotAcc_cons (a s : R) (as ss : List R) : dotAcc (a :: as) (s :: ss) 0 = a * s + dotAcc as ss 0 := by
  rw [dotAcc, dotAcc_acc]; ring

theorem dotAcc_append : ∀ (u s v t : List R), u.length = s.length → dotAcc (u ++ v) (s ++ t) 0 = dotAcc u s 0 + dotAcc v t 0
  | [], [], v, t, _ => by simp [dotAcc]
  | [], _ :: _, _, _, h => by simp at h
  | _ :: _, [], _, _, h => by simp at h
  | a :: u, b :: s, v, t, h => by
    rw [List.cons_append, List.cons_append, dotAcc_cons, dotAcc_cons, dotAcc_append u s v t (by simpa using h)]; ring

theorem dotAcc_sum : ∀ (a s : List R), a.length = s.length →
    dotAcc a s 0 = ∑ j ∈ Finset.range a.length, a.getD j 0 * s.getD j 0
  | [], [], _ => by simp [dotAcc]
  | [], _ :: _, h => by simp at h
  | _ :: _, [], h => by simp at h
  | a :: u, b :: s, h => by
    rw [dotAcc_cons, dotAcc_sum u s (by simpa using h), List.length_cons, Finset.sum_range_succ']
    simp only [List.getD_cons_zero, List.getD_cons_succ]
    ring

theorem dotAcc_mad (s : R) : ∀ (c a k : List R), c.length = a.length →
    dotAcc (zipAssign (fun c a => c + a * s) c a) k 0 = dotAcc c k 0 + dotAcc a k 0 * s
  | [], [], k, _ => by simp [dotAcc, zipAssign]
  | [], _ :: _, _, h => by simp at h
  | _ :: _, [], _, h => by simp at h
  | x :: c, y :: a, [], _ => by simp [dotAcc, zipAssign]
  | x :: c, y :: a, k :: ks, h => by
    rw [zipAssign, dotAcc_cons, dotAcc_cons, dotAcc_cons, dotAcc_mad s c a ks (by simpa using h)]; ring

theorem dotAcc_add (c a k : List R) (h : c.length = a.length) :
    dotAcc (zipAssign (· + ·) c a) k 0 = dotAcc c k 0 + dotAcc a k 0 := by
  have := dotAcc_mad (1 : R) c a k h
  simpa using this

theorem dotAcc_sub : ∀ (c a k : List R), c.length = a.length →
    dotAcc (List.zipWith (· - ·) c a) k 0 = dotAcc c k 0 - dotAcc a k 0
  | [], [], k, _ => by simp [dotAcc]
  | [], _ :: _, _, h => by simp at h
  | _ :: _, [], _, h => by simp at h
  | x :: c, y :: a, [], _ => by simp [dotAcc]
  | x :: c, y :: a, k :: ks, h => by
    rw [List.zipWith_cons_cons, dotAcc_cons, dotAcc_cons, dotAcc_cons, dotAcc_sub c a ks (by simpa using h)]; ring

theorem dotAcc_zero : ∀ (a : List R) (k : List R), dotAcc (a.map fun _ => 0) k 0 = 0
  | [], k => by simp [dotAcc]
  | _ :: _, [] => by simp [dotAcc]
  | _ :: a, k :: ks => by rw [List.map_cons, dotAcc_cons, dotAcc_zero a ks]; ring

theorem lweEncLoop_spec : ∀ (as ds rs : List R) (b : R), as.length = ds.length → rs.length = ds.length →
    (lweEncLoop as ds rs b).1 = rs ∧ (lweEncLoop as ds rs b).2 = b + dotAcc rs ds 0
  | [], [], [], b, _, _ => by simp [lweEncLoop, dotAcc]
  | [], [], _ :: _, _, _, h => by simp at h
  | [], _ :: _, _, _, h, _ => by simp at h
  | _ :: _, [], _, _, h, _ => by simp at h
  | _ :: _, _ :: _, [], _, _, h => by simp at h
  | _ :: as, d :: ds, r :: rs, b, h1, h2 => by
    obtain ⟨e1, e2⟩ := lweEncLoop_spec as ds rs (b + r * d) (by simpa using h1) (by simpa using h2)
    rw [lweEncLoop]
    exact ⟨by rw [e1], by rw [e2, dotAcc_cons]; ring⟩

/-! ### GLWE -/

/-- the inner product of two lists of polynomials in the negacyclic ring -/
noncomputable def dotC (N : Nat) : List (List R) → List (List R) → Nega R N
  | a :: as, s :: ss => cls N a * cls N s + dotC N as ss
  | _, _ => 0

def AllLen (N : Nat) (l : List (List R)) : Prop := ∀ p ∈ l, p.length = N

theorem AllLen.cons {N : Nat} {p : List R} {l : List (List R)} (h : AllLen N (p :: l)) : p.length = N ∧ AllLen N l :=
  ⟨h p (by simp), fun q hq => h q (by simp [hq])⟩

theorem madAll_spec {N : Nat} (hN : isPow2 N = true) : ∀ (as ss : List (List R)) (tmp : List R), AllLen N as → AllLen N ss →
    tmp.length = N → ∃ q, madAll tmp as ss = some q ∧ q.length = N ∧ cls N q = cls N tmp + dotC N as ss
  | [], ss, tmp, _, _, ht => ⟨tmp, by simp [madAll], ht, by simp [dotC]⟩
  | _ :: _, [], tmp, _, _, ht => ⟨tmp, by simp [madAll], ht, by simp [dotC]⟩
  | a :: as, s :: ss, tmp, ha, hs, ht => by
    obtain ⟨t, h1, h2, h3⟩ := polyMad_spec tmp a s hN ht ha.cons.1 hs.cons.1
    obtain ⟨q, h4, h5, h6⟩ := madAll_spec hN as ss t ha.cons.2 hs.cons.2 h2
    refine ⟨q, by rw [madAll, h1]; exact h4, h5, ?_⟩
    rw [h6, h3, dotC]; ring

theorem cls_addAssign {N : Nat} (a b : List R) (h : a.length = b.length) : cls N (polyAddAssign a b) = cls N a + cls N b := by
  rw [polyAddAssign, zipAssign_eq _ _ _ h, cls_zipWith_add N a b h]

theorem cls_subAssign {N : Nat} (a b : List R) (h : a.length = b.length) : cls N (polySubAssign a b) = cls N a - cls N b := by
  rw [polySubAssign, zipAssign_eq _ _ _ h, cls_zipWith_sub N a b h]

theorem glweDecrypt_spec {N k : Nat} (hN : isPow2 N = true) (ct : Glwe R) (sk : List (List R)) (hct : ct.valid k N) (hsk : AllLen N sk) :
    ∃ m, glweDecrypt ct sk = some m ∧ m.length = N ∧ cls N m = cls N ct.b - dotC N ct.a sk := by
  obtain ⟨h1, h2, h3⟩ := hct
  obtain ⟨q, e1, e2, e3⟩ := madAll_spec hN ct.a sk (List.replicate ct.b.length 0) h2 hsk (by simp [h3])
  refine ⟨polySubAssign ct.b q, by rw [glweDecrypt, e1], by rw [polySubAssign, zipAssign_length]; exact h3, ?_⟩
  rw [cls_subAssign _ _ (by omega), e3, cls_replicate_zero]; ring

theorem glweDecrypt_eq {N k : Nat} (hN : isPow2 N = true) (ct : Glwe R) (sk : List (List R)) (hct : ct.valid k N) (hsk : AllLen N sk)
    (m : List R) (hm : m.length = N) : glweDecrypt ct sk = some m ↔ cls N m = cls N ct.b - dotC N ct.a sk := by
  obtain ⟨m', h1, h2, h3⟩ := glweDecrypt_spec hN ct sk hct hsk
  rw [h1]
  constructor
  · intro h; rw [← Option.some.inj h]; exact h3
  · intro h; congr 1; exact cls_inj N m' m h2 hm (by rw [h3, h])

/-- `f` computes `a + u * b` -/
def Lin (N : Nat) (u : Nega R N) (f : List R → List R → Option (List R)) : Prop :=
  ∀ a b, a.length = N → b.length = N → ∃ c, f a b = some c ∧ c.length = N ∧ cls N c = cls N a + u * cls N b

theorem zipPolys_spec {N : Nat} {u : Nega R N} {f : List R → List R → Option (List R)} (hf : Lin N u f) :
    ∀ (as bs : List (List R)), as.length = bs.length → AllLen N as → AllLen N bs →
    ∃ cs, zipPolys f as bs = some cs ∧ cs.length = as.length ∧ AllLen N cs ∧
      ∀ sk, dotC N cs sk = dotC N as sk + u * dotC N bs sk
  | [], [], _, _, _ => ⟨[], rfl, rfl, by simp [AllLen], fun sk => by simp [dotC]⟩
  | [], _ :: _, h, _, _ => by simp at h
  | _ :: _, [], h, _, _ => by simp at h
  | a :: as, b :: bs, h, ha, hb => by
    obtain ⟨c, e1, e2, e3⟩ := hf a b ha.cons.1 hb.cons.1
    obtain ⟨cs, e4, e5, e6, e7⟩ := zipPolys_spec hf as bs (by simpa using h) ha.cons.2 hb.cons.2
    refine ⟨c :: cs, by rw [zipPolys, e1, e4], by simp [e5], ?_, ?_⟩
    · intro p hp
      rcases List.mem_cons.mp hp with rfl | hp
      · exact e2
      · exact e6 p hp
    · intro sk
      cases sk with
      | nil => simp [dotC]
      | cons s ss => rw [dotC, dotC, dotC, e7 ss, e3]; ring

theorem lin_add (N : Nat) : Lin (R := R) N 1 polyAdd := fun a b ha hb =>
  ⟨_, by rw [polyAdd, if_pos (by omega)], by simp; omega, by rw [cls_zipWith_add N a b (by omega)]; ring⟩
theorem lin_sub (N : Nat) : Lin (R := R) N (-1) polySub := fun a b ha hb =>
  ⟨_, by rw [polySub, if_pos (by omega)], by simp; omega, by rw [cls_zipWith_sub N a b (by omega)]; ring⟩
theorem lin_mad {N : Nat} (hN : isPow2 N = true) (p : List R) (hp : p.length = N) : Lin N (cls N p) (fun c a => polyMad c a p) :=
  fun a b ha hb => by
    obtain ⟨q, h1, h2, h3⟩ := polyMad_spec a b p hN ha hb hp
    exact ⟨q, h1, h2, by rw [h3]; ring⟩
theorem lin_scalar (N : Nat) (s : R) : Lin (R := R) N (AdjoinRoot.of _ s) (fun c a => some (polyScalarMad c a s)) :=
  fun a b ha hb => ⟨_, rfl, by rw [polyScalarMad, zipAssign_length]; exact ha, by rw [cls_scalarMad N a b s (by omega)]; ring⟩

/-- a ciphertext operation that acts as `a + u * b` on every polynomial acts so on decryptions -/
theorem lin_decrypt {N k : Nat} (hN : isPow2 N = true) {u : Nega R N} {f : List R → List R → Option (List R)} (hf : Lin N u f)
    (a b : Glwe R) (sk : List (List R)) (ha : a.valid k N) (hb : b.valid k N) (hsk : AllLen N sk) :
    ∃ xs y, zipPolys f a.a b.a = some xs ∧ f a.b b.b = some y ∧ Glwe.valid ⟨xs, y⟩ k N ∧
    ∃ ma mb mc, glweDecrypt a sk = some ma ∧ glweDecrypt b sk = some mb ∧ glweDecrypt ⟨xs, y⟩ sk = some mc ∧
      ma.length = N ∧ mb.length = N ∧ mc.length = N ∧ cls N mc = cls N ma + u * cls N mb := by
  obtain ⟨xs, h1, h2, h3, h4⟩ := zipPolys_spec hf a.a b.a (by rw [ha.1, hb.1]) ha.2.1 hb.2.1
  obtain ⟨y, h5, h6, h7⟩ := hf a.b b.b ha.2.2 hb.2.2
  have hv : Glwe.valid ⟨xs, y⟩ k N := ⟨by rw [h2]; exact ha.1, h3, h6⟩
  obtain ⟨ma, a1, a2, a3⟩ := glweDecrypt_spec hN a sk ha hsk
  obtain ⟨mb, b1, b2, b3⟩ := glweDecrypt_spec hN b sk hb hsk
  obtain ⟨mc, c1, c2, c3⟩ := glweDecrypt_spec hN ⟨xs, y⟩ sk hv hsk
  refine ⟨xs, y, h1, h5, hv, ma, mb, mc, a1, b1, c1, a2, b2, c2, ?_⟩
  rw [c3, a3, b3]
  simp only
  rw [h4 sk, h7]; ring

/-! ### sample extraction -/

theorem getD_eq_getElem' {α : Type} (d : α) (l : List α) (i : Nat) (h : i < l.length) : l.getD i d = l[i] := by
  simp [List.getD, h]

theorem getD_append_left' {α : Type} (d : α) (u v : List α) (i : Nat) (h : i < u.length) : (u ++ v).getD i d = u.getD i d := by
  simp [List.getD, List.getElem?_append, h]

theorem column_eq {N j : Nat} (a : List R) (ha : a.length = N) (hj : j < N) :
    ((List.range N).map fun h => (extractRow N h a).getD j 0) =
      ((a.drop (N - j)).map fun x => -x) ++ a.take (N - j) := by
  apply List.ext_getElem
  · simp; omega
  · intro h h1 h2
    have hh : h < N := by simpa using h1
    simp only [List.getElem_map, List.getElem_range, extractRow, List.getElem_append, List.length_map, List.length_drop,
      List.getElem_drop, List.getElem_take]
    have : ((List.range N).map fun j => if j ≤ h then a.getD (h - j) 0 else -a.getD (h + N - j) 0).getD j 0 =
        if j ≤ h then a.getD (h - j) 0 else -a.getD (h + N - j) 0 := by
      simp [List.getD, List.getElem?_map, List.getElem?_range hj]
    rw [this]
    by_cases hjh : j ≤ h
    · rw [if_pos hjh, dif_neg (by omega)]
      have e : h - (a.length - (N - j)) = h - j := by omega
      simp only [e]
      rw [getD_eq_getElem' _ _ _ (by omega)]
    · rw [if_neg hjh, dif_pos (by omega)]
      rw [getD_eq_getElem' _ _ _ (by omega)]
      congr 2; omega

theorem column_cls {N j : Nat} (a : List R) (ha : a.length = N) (hj : j < N) :
    cls N ((List.range N).map fun h => (extractRow N h a).getD j 0) = xcls N ^ j * cls N a := by
  rw [column_eq a ha hj, cls_append, cls_neg, List.length_map, List.length_drop, ha, show N - (N - j) = j by omega]
  conv_rhs => rw [← List.take_append_drop (N - j) a, cls_append]
  rw [List.length_take, ha, Nat.min_eq_left (by omega)]
  have : (xcls N : Nega R N) ^ j * xcls N ^ (N - j) = -1 := by rw [← pow_add, show j + (N - j) = N by omega, xcls_pow]
  linear_combination (-cls N (a.drop (N - j))) * this

theorem extractRow_length (N h : Nat) (a : List R) : (extractRow N h a).length = N := by simp [extractRow]

theorem product_coeffs {N : Nat} (a s : List R) (ha : a.length = N) (hs : s.length = N) :
    cls N ((List.range N).map fun h => dotAcc (extractRow N h a) s 0) = cls N a * cls N s := by
  rw [cls_eq_sum]
  have hget : ∀ h ∈ Finset.range ((List.range N).map fun h => dotAcc (extractRow N h a) s 0).length,
      AdjoinRoot.of (Polynomial.X ^ N + 1 : Polynomial R) (((List.range N).map fun h => dotAcc (extractRow N h a) s 0).getD h 0) * xcls N ^ h =
      ∑ j ∈ Finset.range N, AdjoinRoot.of _ (s.getD j 0) * (AdjoinRoot.of _ ((extractRow N h a).getD j 0) * xcls N ^ h) := by
    intro h hh
    have hh' : h < N := by simpa using hh
    have e : ((List.range N).map fun h => dotAcc (extractRow N h a) s 0).getD h 0 = dotAcc (extractRow N h a) s 0 := by
      simp [List.getD, List.getElem?_map, List.getElem?_range hh']
    rw [e, dotAcc_sum _ _ (by rw [extractRow_length, hs]), map_sum, Finset.sum_mul, extractRow_length]
    apply Finset.sum_congr rfl
    intro j _
    rw [map_mul]; ring
  rw [Finset.sum_congr rfl hget, Finset.sum_comm, cls_eq_sum N s, hs, Finset.mul_sum]
  apply Finset.sum_congr rfl
  intro j hj
  rw [← Finset.mul_sum]
  have hcol := column_cls a ha (Finset.mem_range.mp hj)
  rw [cls_eq_sum] at hcol
  have e2 : (∑ i ∈ Finset.range (List.map (fun h ↦ dotAcc (extractRow N h a) s 0) (List.range N)).length,
      AdjoinRoot.of (Polynomial.X ^ N + 1 : Polynomial R) ((extractRow N i a).getD j 0) * xcls N ^ i) = xcls N ^ j * cls N a := by
    rw [← hcol]
    simp only [List.length_map, List.length_range]
    apply Finset.sum_congr rfl
    intro i hi
    have hi' : i < N := Finset.mem_range.mp hi
    congr 2
    simp [List.getD, List.getElem?_map, List.getElem?_range hi']
  rw [e2]; ring

theorem madAll_coeff {N h : Nat} (hN : isPow2 N = true) (hh : h < N) : ∀ (as ss : List (List R)) (tmp q : List R),
    as.length = ss.length → AllLen N as → AllLen N ss → tmp.length = N → madAll tmp as ss = some q →
    q.getD h 0 = tmp.getD h 0 + dotAcc ((as.map (extractRow N h)).flatten) ss.flatten 0
  | [], [], tmp, q, _, _, _, _, hq => by
    simp [madAll] at hq; simp [hq, dotAcc]
  | [], _ :: _, _, _, h, _, _, _, _ => by simp at h
  | _ :: _, [], _, _, h, _, _, _, _ => by simp at h
  | a :: as, s :: ss, tmp, q, hl, ha, hs, ht, hq => by
    obtain ⟨t, h1, h2, h3⟩ := polyMad_spec tmp a s hN ht ha.cons.1 hs.cons.1
    rw [madAll, h1] at hq
    have ih := madAll_coeff hN hh as ss t q (by simpa using hl) ha.cons.2 hs.cons.2 h2 hq
    rw [ih, List.map_cons, List.flatten_cons, List.flatten_cons, dotAcc_append _ _ _ _ (by rw [extractRow_length, hs.cons.1])]
    have ht' : t = List.zipWith (· + ·) tmp ((List.range N).map fun h => dotAcc (extractRow N h a) s 0) := by
      apply cls_inj N _ _ h2 (by simp; omega)
      rw [h3, cls_zipWith_add _ _ _ (by simp; omega), product_coeffs a s ha.cons.1 hs.cons.1]
    have : t.getD h 0 = tmp.getD h 0 + dotAcc (extractRow N h a) s 0 := by
      rw [ht']
      have e1 : h < tmp.length := by omega
      simp [List.getD, List.getElem?_zipWith, List.getElem?_eq_getElem e1, List.getElem?_range hh]
    rw [this]; ring

end Spf.Tfhe
