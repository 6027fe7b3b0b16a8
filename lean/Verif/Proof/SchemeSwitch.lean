import Verif.Model.SchemeSwitch
import Verif.Props.Ggsw
import Verif.Props.TriPairs
/-! Scheme switching, on phases. -/
namespace Spf.Tfhe
open Spf.Spec Spf.Props

variable {W N : Nat}

theorem tri_mono {a b : Nat} (h : a ≤ b) : a * (a + 1) ≤ b * (b + 1) := Nat.mul_le_mul h (by omega)

theorem triFrom_get (n r c : Nat) (hrc : r ≤ c) (hc : c < n) : ∀ i j : Nat, i ≤ j → (j < n ∨ i = n) → (i < r ∨ (i = r ∧ j ≤ c)) → ∀ t,
    2 * t + 2 * j + (n - r) * (n - r + 1) + 2 * r = (n - i) * (n - i + 1) + 2 * c + 2 * i → (triFrom n i j)[t]? = some (r, c) := by
  intro i j
  induction i, j using triFrom.induct n with
  | case1 i j h h2 ih =>
    intro hij hj hlt t ht
    rw [triFrom, dif_pos h, dif_pos h2]
    by_cases he : i = r ∧ j = c
    · obtain ⟨rfl, rfl⟩ := he
      have : t = 0 := by omega
      subst this; rfl
    · have hp : (n - i) * (n - i + 1) = (n - (i + 1)) * (n - (i + 1) + 1) + 2 * (n - i) := by
        obtain ⟨m, hm⟩ : ∃ m, n - i = m + 1 := ⟨n - i - 1, by omega⟩
        rw [hm, show n - (i + 1) = m by omega]; ring
      have h0 : t ≠ 0 := by
        rintro rfl
        rcases hlt with hl | ⟨rfl, hl⟩
        · have := tri_mono (show n - r ≤ n - (i + 1) by omega)
          omega
        · omega
      obtain ⟨t, rfl⟩ := Nat.exists_eq_succ_of_ne_zero h0
      rw [List.getElem?_cons_succ]
      exact ih (by omega) (by omega) (by omega) t (by omega)
  | case2 i j h h2 ih =>
    intro hij hj hlt t ht
    rw [triFrom, dif_pos h, dif_neg h2]
    by_cases he : i = r ∧ j = c
    · obtain ⟨rfl, rfl⟩ := he
      have : t = 0 := by omega
      subst this; rfl
    · have hp : (n - i) * (n - i + 1) = (n - (i + 1)) * (n - (i + 1) + 1) + 2 * (n - i) := by
        obtain ⟨m, hm⟩ : ∃ m, n - i = m + 1 := ⟨n - i - 1, by omega⟩
        rw [hm, show n - (i + 1) = m by omega]; ring
      have hir : i < r := by omega
      have h0 : t ≠ 0 := by
        rintro rfl
        have := tri_mono (show n - r ≤ n - (i + 1) by omega)
        omega
      obtain ⟨t, rfl⟩ := Nat.exists_eq_succ_of_ne_zero h0
      rw [List.getElem?_cons_succ]
      exact ih (by omega) (by omega) (by omega) t (by omega)
  | case3 i j h =>
    intro hij hj hlt t ht
    omega

theorem tri_even (a : Nat) : a * (a + 1) / 2 * 2 = a * (a + 1) := Nat.div_mul_cancel (even_iff_two_dvd.1 (Nat.even_mul_succ_self a))

/-- `get_linear_index` of any two indices is the position of the pair in the order of the triangular iterator. -/
theorem linearIndex_spec (n i j : Nat) (hi : i < n) (hj : j < n) :
    ∃ t, linearIndex i j n = some t ∧ (triFrom n 0 0)[t]? = some (min i j, max i j) := by
  refine ⟨_, by rw [linearIndex, if_pos ⟨hi, hj⟩], ?_⟩
  have h1 := tri_even n
  have key : ∀ r c, r ≤ c → c < n → (triFrom n 0 0)[n * (n + 1) / 2 - (n - r) * ((n - r) + 1) / 2 + c - r]? = some (r, c) := by
    intro r c hrc hc
    have h2 := tri_even (n - r)
    have h3 := tri_mono (show n - r ≤ n by omega)
    exact triFrom_get n r c hrc hc 0 0 (by omega) (by omega) (by omega) _ (by
      simp only [Nat.sub_zero, Nat.mul_zero, Nat.add_zero]
      omega)
  by_cases h : i ≤ j
  · simp only [if_pos h, Nat.min_eq_left h, Nat.max_eq_right h]
    exact key i j h hj
  · simp only [if_neg h, Nat.min_eq_right (show j ≤ i by omega), Nat.max_eq_left (show j ≤ i by omega)]
    exact key j i (by omega) hi

/-- the message of the GLev ciphertext at a pair of indices -/
noncomputable def sskMsg (N : Nat) (sk : List (List (BitVec W))) (p : Nat × Nat) : Nega (BitVec W) N := cls N (sk.getD p.1 []) * cls N (sk.getD p.2 [])

theorem sskLoop_spec {n d E : Nat} (hW : W ≤ 64) (r : Radix) (hl : 0 < r.log) (hc : 0 < r.count) (hlc : r.log * r.count ≤ W)
    (sk : List (List (BitVec W))) (hsk : KeyFor sk d (2 ^ n)) (masks : Nat → Nat → List (List (BitVec W))) (noise : Nat → Nat → Option (List Int))
    (hma : ∀ i j, KeyFor (masks i j) d (2 ^ n)) (hno : ∀ i j, NoiseOk (2 ^ n) E (noise i j)) : ∀ i j : Nat, i ≤ j → (j < d ∨ i = d) → i ≤ d →
    ∀ (t : Nat) (bufs : List (List (Glwe (BitVec W)))), bufs.length = (triFrom d i j).length →
      (∀ row ∈ bufs, row.length = r.count ∧ ∀ b ∈ row, FreshBuf d (2 ^ n) b) →
    ∃ ssk, sskLoop (2 ^ n) r sk masks (fun i j => (noise i j).map fun l => l.map (BitVec.ofInt W)) t ⟨sk, i, j⟩ bufs = some ssk ∧
      List.Forall₂ (fun p glev => GlevOk d (2 ^ n) r.log r.count E sk (sskMsg (2 ^ n) sk p) glev) (triFrom d i j) ssk := by
  have hN : isPow2 (2 ^ n) = true := isPow2_iff.mpr ⟨n, rfl⟩
  have step : ∀ i j, (hi : i < d) → (hj : j < d) → ∀ (it : Tri.Pairs (List (BitVec W))) (rest : List (Nat × Nat)) t
      (buf : List (Glwe (BitVec W))) (bufs : List (List (Glwe (BitVec W)))),
      (Tri.Pairs.mk sk i j).next = some (some (sk[i]'(by rw [hsk.1]; exact hi), sk[j]'(by rw [hsk.1]; exact hj)), it) →
      buf.length = r.count → (∀ b ∈ buf, FreshBuf d (2 ^ n) b) →
      (∃ ssk, sskLoop (2 ^ n) r sk masks (fun i j => (noise i j).map fun l => l.map (BitVec.ofInt W)) (t + 1) it bufs = some ssk ∧
        List.Forall₂ (fun p glev => GlevOk d (2 ^ n) r.log r.count E sk (sskMsg (2 ^ n) sk p) glev) rest ssk) →
      ∃ ssk, sskLoop (2 ^ n) r sk masks (fun i j => (noise i j).map fun l => l.map (BitVec.ofInt W)) t ⟨sk, i, j⟩ (buf :: bufs) = some ssk ∧
        List.Forall₂ (fun p glev => GlevOk d (2 ^ n) r.log r.count E sk (sskMsg (2 ^ n) sk p) glev) ((i, j) :: rest) ssk := by
    rintro i j hi hj it rest t buf bufs hnext b1 b2 ⟨ssk, s1, s2⟩
    obtain ⟨q, q1, q2, q3⟩ := polyMad_spec (List.replicate (2 ^ n) 0) (sk[i]'(by rw [hsk.1]; exact hi)) (sk[j]'(by rw [hsk.1]; exact hj)) hN (by simp)
      (hsk.2 _ (List.getElem_mem _)) (hsk.2 _ (List.getElem_mem _))
    rw [cls_replicate_zero, zero_add] at q3
    obtain ⟨row, r1, r2⟩ := glevEncrypt_spec hW r hl hc hlc q q2 sk hsk (masks t) (noise t) (hma t) (hno t) buf b1 b2
    refine ⟨row :: ssk, ?_, .cons ?_ s2⟩
    · rw [sskLoop, hnext]
      simp only [q1, r1, s1]
    · rw [q3] at r2
      rw [sskMsg, getD_eq_getElem' _ _ _ (by rw [hsk.1]; exact hi), getD_eq_getElem' _ _ _ (by rw [hsk.1]; exact hj)]
      exact r2
  intro i j
  induction i, j using triFrom.induct d with
  | case1 i j h h2 ih =>
    intro hij hj hi t bufs hlen hb
    rw [triFrom, dif_pos h, dif_pos h2] at hlen ⊢
    cases bufs with
    | nil => simp at hlen
    | cons buf bufs =>
      apply step i j h (by omega) ⟨sk, i, j + 1⟩ _ t buf bufs _ (hb buf (by simp)).1 (hb buf (by simp)).2
      · exact ih (by omega) (by omega) (by omega) (t + 1) bufs (by simpa using hlen) fun z hz => hb z (by simp [hz])
      · rw [Tri.Pairs.next, if_neg (by simp only [hsk.1]; omega)]
        simp only [List.getElem?_eq_getElem (show i < sk.length by rw [hsk.1]; omega), List.getElem?_eq_getElem (show j < sk.length by rw [hsk.1]; omega)]
        rw [if_neg (by rw [hsk.1]; omega)]
  | case2 i j h h2 ih =>
    intro hij hj hi t bufs hlen hb
    rw [triFrom, dif_pos h, dif_neg h2] at hlen ⊢
    cases bufs with
    | nil => simp at hlen
    | cons buf bufs =>
      apply step i j h (by omega) ⟨sk, i + 1, i + 1⟩ _ t buf bufs _ (hb buf (by simp)).1 (hb buf (by simp)).2
      · exact ih (by omega) (by omega) (by omega) (t + 1) bufs (by simpa using hlen) fun z hz => hb z (by simp [hz])
      · rw [Tri.Pairs.next, if_neg (by simp only [hsk.1]; omega)]
        simp only [List.getElem?_eq_getElem (show i < sk.length by rw [hsk.1]; omega), List.getElem?_eq_getElem (show j < sk.length by rw [hsk.1]; omega)]
        rw [if_pos (by rw [hsk.1]; omega)]
  | case3 i j h =>
    intro hij hj hi t bufs hlen hb
    rw [triFrom, dif_neg h] at hlen ⊢
    have : bufs = [] := by simpa using hlen
    subst this
    exact ⟨[], by rw [sskLoop], .nil⟩

/-- a scheme switch key: at every pair of indices, a GLev ciphertext of the product of the key polynomials -/
def SskOk (d N l c E : Nat) (sk : List (List (BitVec W))) (ssk : List (List (Glwe (BitVec W)))) : Prop :=
  List.Forall₂ (fun p glev => GlevOk d N l c E sk (sskMsg N sk p) glev) (triFrom d 0 0) ssk

theorem forall₂_get {A B : Type} {R : A → B → Prop} : ∀ {l : List A} {m : List B}, List.Forall₂ R l m → ∀ {t : Nat} {a : A}, l[t]? = some a → ∃ b, m[t]? = some b ∧ R a b
  | _, _, .cons h _, 0, _, ht => ⟨_, rfl, by simp at ht; subst ht; exact h⟩
  | _, _, .cons _ hs, t + 1, _, ht => forall₂_get hs (by simpa using ht)
  | _, _, .nil, _, _, ht => by simp at ht

theorem ssk_length {d l c E : Nat} {sk : List (List (BitVec W))} {ssk : List (List (Glwe (BitVec W)))} (h : SskOk d N l c E sk ssk) :
    ssk.length = triangularEntries d := by
  rw [← h.length_eq, triangularEntries]
  have h1 := triFrom_length d 0 0 (by omega) (by omega) (by omega)
  simp only [Nat.sub_zero, Nat.mul_zero, Nat.add_zero] at h1
  have h2 := tri_even d
  omega

theorem getGlev_spec {d l c E : Nat} {sk : List (List (BitVec W))} {ssk : List (List (Glwe (BitVec W)))} (h : SskOk d N l c E sk ssk)
    {i j : Nat} (hi : i < d) (hj : j < d) :
    ∃ glev, getGlev d ssk i j = some glev ∧ GlevOk d N l c E sk (cls N (sk.getD i []) * cls N (sk.getD j [])) glev := by
  obtain ⟨t, t1, t2⟩ := linearIndex_spec d i j hi hj
  obtain ⟨glev, g1, g2⟩ := forall₂_get h t2
  refine ⟨glev, by rw [getGlev, t1]; exact g1, ?_⟩
  rcases Nat.le_total i j with hij | hij
  · rw [Nat.min_eq_left hij, Nat.max_eq_right hij] at g2; exact g2
  · rw [Nat.min_eq_right hij, Nat.max_eq_left hij, sskMsg, mul_comm] at g2; exact g2

theorem ssMadLoop_eq {d : Nat} (r : Radix) (ssk : List (List (Glwe (BitVec W)))) (j : Nat) : ∀ (ri : Nat) (as : List (List (BitVec W)))
    (rows : List (List (Glwe (BitVec W)))) (y : Glwe (BitVec W)), as.length = rows.length →
    (∀ t (h : t < rows.length), getGlev d ssk j (ri + t) = some rows[t]) → ssMadLoop d N r ssk j ri as y = ggswMadLoop N r as rows y
  | _, [], [], _, _, _ => by simp [ssMadLoop, ggswMadLoop]
  | _, [], _ :: _, _, h, _ => by simp at h
  | _, _ :: _, [], _, h, _ => by simp at h
  | ri, a :: as, row :: rows, y, hlen, h => by
    have h0 := h 0 (by simp)
    simp only [Nat.add_zero, List.getElem_cons_zero] at h0
    have ih := fun y => ssMadLoop_eq (d := d) r ssk j (ri + 1) as rows y (by simpa using hlen) fun t ht => by
      have := h (t + 1) (by simpa using ht)
      rw [List.getElem_cons_succ] at this
      rw [show ri + 1 + t = ri + (t + 1) by omega]; exact this
    rw [ssMadLoop, ggswMadLoop, h0]
    cases polyDigits a r with
    | none => rfl
    | some ds =>
      simp only
      cases glevMad ds (List.replicate N 0) row.reverse y with
      | none => rfl
      | some y => exact ih y

theorem rows_exist {d l c E : Nat} {sk : List (List (BitVec W))} (hd : sk.length = d) {ssk : List (List (Glwe (BitVec W)))} (h : SskOk d N l c E sk ssk)
    {j : Nat} (hj : j < d) : ∃ rows : List (List (Glwe (BitVec W))), rows.length = d ∧ (∀ t (h : t < rows.length), getGlev d ssk j (0 + t) = some rows[t]) ∧
      List.Forall₂ (GlevOk d N l c E sk) (sk.map fun s => cls N (sk.getD j []) * cls N s) rows := by
  have key : ∀ m, m ≤ d → ∃ rows : List (List (Glwe (BitVec W))), rows.length = m ∧ (∀ t (h : t < rows.length), getGlev d ssk j (0 + t) = some rows[t]) ∧
      List.Forall₂ (GlevOk d N l c E sk) ((sk.take m).map fun s => cls N (sk.getD j []) * cls N s) rows := by
    intro m
    induction m with
    | zero => exact fun _ => ⟨[], rfl, by simp, by simp⟩
    | succ m ih =>
      intro hm
      obtain ⟨rows, r1, r2, r3⟩ := ih (by omega)
      obtain ⟨glev, g1, g2⟩ := getGlev_spec h hj (show m < d by omega)
      refine ⟨rows ++ [glev], by simp [r1], fun t ht => ?_, ?_⟩
      · rw [List.getElem_append]
        split
        · exact r2 t ‹_›
        · have : t = m := by simp at ht; omega
          subst this
          simp [r1, g1]
      · rw [List.take_succ_eq_append_getElem (by omega), List.map_append]
        refine List.rel_append r3 ?_
        rw [getD_eq_getElem' _ _ _ (show m < sk.length by omega)] at g2
        exact .cons g2 .nil
  obtain ⟨rows, r1, r2, r3⟩ := key d le_rfl
  rw [List.take_of_length_le (by omega)] at r3
  exact ⟨rows, r1, r2, r3⟩

/-- only the mask polynomial `j` is set -/
def encAt (d N j : Nat) (p : List (BitVec W)) : Glwe (BitVec W) := ⟨(List.replicate d (List.replicate N 0)).set j p, List.replicate N 0⟩

theorem dotC_set (p : List (BitVec W)) : ∀ (d j : Nat) (sk : List (List (BitVec W))), j < d → sk.length = d →
    dotC N ((List.replicate d (List.replicate N 0)).set j p) sk = cls N p * cls N (sk.getD j [])
  | 0, j, _, h, _ => by omega
  | d + 1, _, [], _, h => by simp at h
  | d + 1, 0, s :: sk, _, _ => by
    rw [List.replicate_succ, List.set_cons_zero, dotC, dotC_zeros, List.getD_cons_zero, add_zero]
  | d + 1, j + 1, s :: sk, h, hl => by
    rw [List.replicate_succ, List.set_cons_succ, dotC, dotC_set p d j sk (by omega) (by simpa using hl), List.getD_cons_succ, cls_replicate_zero]; ring

theorem encAt_phase {d j : Nat} (p : List (BitVec W)) (sk : List (List (BitVec W))) (hj : j < d) (hsk : sk.length = d) :
    phG N sk (encAt d N j p) = -(cls N p * cls N (sk.getD j [])) := by
  rw [phG, encAt]
  simp only
  rw [dotC_set p d j sk hj hsk, cls_replicate_zero, zero_sub]

theorem encAt_valid {d j : Nat} (p : List (BitVec W)) (hp : p.length = N) : (encAt d N j p).valid d N := by
  refine ⟨by simp [encAt], fun q hq => ?_, by simp [encAt]⟩
  rcases List.mem_or_eq_of_mem_set hq with h | h
  · rw [List.eq_of_mem_replicate h]; simp
  · rw [h]; exact hp

theorem fillA_encAt {d j : Nat} (p q : List (BitVec W)) (hj : j < d) (hq : q.length = N) : fillA d N (encAt d N j p) q j = some (encAt d N j q) := by
  rw [fillA, if_pos ⟨hj, hq⟩, encAt, encAt]
  simp only [List.set_set]

theorem zeroA_encAt {d j i : Nat} (p : List (BitVec W)) (hi : i < d) : zeroA d N (encAt d N i p) i = some (encAt d N j (List.replicate N 0)) := by
  rw [zeroA, if_pos hi, encAt, encAt]
  simp only [List.set_set, Option.some.injEq, Glwe.mk.injEq, and_true]
  apply List.ext_getElem (by simp)
  intro t h1 h2
  simp

/-- the error added to a row of the GGSW ciphertext, from the noise `E0` of the GLev ciphertext and `Es` of the key -/
def ssBound (W d N : Nat) (r : Radix) (S E0 Es : Nat) : Nat :=
  N * (S * E0) + N * (S * (d * (N * (S * 2 ^ (W - r.log * r.count - 1))))) + d * (r.count * (N * (2 ^ (r.log - 1) * Es)))

theorem sumMul_key (c : Nega (BitVec W) N) (sk as : List (List (BitVec W))) (h : as.length = sk.length) :
    sumMul (sk.map fun s => c * cls N s) (as.map (cls N)) = c * dotC N as sk := by
  have := sumMul_keys (N := N) (-c) sk as h
  simp only [neg_mul, neg_neg] at this
  exact this

/-- one output ciphertext: a row `j < d` entry has phase `-s_j` times the phase of the input, up to the errors -/
theorem ssMad_spec {n d S Es : Nat} {r : Radix} (hl : 0 < r.log) (hc : 0 < r.count) (hlt : r.log * r.count < W) (sk : List (List (BitVec W)))
    (hsk : KeyFor sk d (2 ^ n)) (hS : ∀ s ∈ sk, Small (2 ^ n) S (cls (2 ^ n) s)) (ssk : List (List (Glwe (BitVec W))))
    (hssk : SskOk d (2 ^ n) r.log r.count Es sk ssk) (j : Nat) (hj : j < d) (x : Glwe (BitVec W)) (hx : x.valid d (2 ^ n)) :
    ∃ y, ssMadLoop d (2 ^ n) r ssk j 0 x.a (encAt d (2 ^ n) j x.b) = some y ∧ y.valid d (2 ^ n) ∧
      Small (2 ^ n) (2 ^ n * (S * (d * (2 ^ n * (S * 2 ^ (W - r.log * r.count - 1))))) + d * (r.count * (2 ^ n * (2 ^ (r.log - 1) * Es))))
        (phG (2 ^ n) sk y + cls (2 ^ n) (sk.getD j []) * phG (2 ^ n) sk x) := by
  have hN : isPow2 (2 ^ n) = true := isPow2_iff.mpr ⟨n, rfl⟩
  obtain ⟨rows, r1, r2, r3⟩ := rows_exist hsk.1 hssk hj
  obtain ⟨out, errs, ν, o1, o2, o3, o4, o5, o6⟩ := ggswMadLoop_spec hN hl hc hlt sk x.a _ rows (encAt d (2 ^ n) j x.b)
    (by simp [hx.1, hsk.1]) hx.2.1 r3 (encAt_valid _ hx.2.2)
  obtain ⟨ρ, p1, p2⟩ := sumMul_err (-(cls (2 ^ n) (sk.getD j []))) sk errs (by rw [o3, hx.1, hsk.1]) hS o4
  simp only [neg_mul, neg_neg] at p2
  refine ⟨out, by rw [ssMadLoop_eq r ssk j 0 x.a rows _ (by rw [hx.1, r1]) r2]; exact o1, o2, ?_⟩
  have hsj : Small (2 ^ n) S (cls (2 ^ n) (sk.getD j [])) := by
    rw [getD_eq_getElem' _ _ _ (show j < sk.length by rw [hsk.1]; exact hj)]
    exact hS _ (List.getElem_mem _)
  have key : phG (2 ^ n) sk out + cls (2 ^ n) (sk.getD j []) * phG (2 ^ n) sk x = -(cls (2 ^ n) (sk.getD j []) * ρ) + ν := by
    rw [o6, encAt_phase x.b sk hj hsk.1, sumMul_key _ sk x.a (by rw [hx.1, hsk.1]), p2, phG]; ring
  rw [key]
  rw [hsk.1] at p1
  rw [hx.1] at o5
  exact (hsj.mul p1).neg.add o5

theorem GlevOk.mono {k l c E E' : Nat} {sk : List (List (BitVec W))} {M : Nega (BitVec W) N} {row : List (Glwe (BitVec W))} (h : GlevOk k N l c E sk M row)
    (hE : E ≤ E') : GlevOk k N l c E' sk M row :=
  ⟨h.1, h.2.1, fun t ht => by obtain ⟨e, h1, h2⟩ := h.2.2 t ht; exact ⟨e, h1.mono hE, h2⟩⟩

/-- a computed row entry extends to a whole row -/
theorem ss_row {n d S E0 Es : Nat} {r : Radix} (sk : List (List (BitVec W)))
    (hsk : KeyFor sk d (2 ^ n)) (hS : ∀ s ∈ sk, Small (2 ^ n) S (cls (2 ^ n) s)) {l c : Nat} (M : Nega (BitVec W) (2 ^ n)) (j : Nat) (hj : j < d)
    (glev row : List (Glwe (BitVec W))) (hg : GlevOk d (2 ^ n) l c E0 sk M glev)
    (h : List.Forall₂ (fun x (y : Glwe (BitVec W)) => y.valid d (2 ^ n) ∧
      Small (2 ^ n) (2 ^ n * (S * (d * (2 ^ n * (S * 2 ^ (W - r.log * r.count - 1))))) + d * (r.count * (2 ^ n * (2 ^ (r.log - 1) * Es))))
        (phG (2 ^ n) sk y + cls (2 ^ n) (sk.getD j []) * phG (2 ^ n) sk x)) glev row) :
    GlevOk d (2 ^ n) l c (ssBound W d (2 ^ n) r S E0 Es) sk (-(M * cls (2 ^ n) (sk.getD j []))) row := by
  have hlen := h.length_eq
  have hget : ∀ t (ht : t < row.length), _ := fun t ht => (List.forall₂_iff_get.1 h).2 t (by omega) ht
  refine ⟨by rw [← hlen]; exact hg.1, fun y hy => ?_, fun t ht => ?_⟩
  · obtain ⟨t, ht, rfl⟩ := List.getElem_of_mem hy
    exact (hget t ht).1
  · obtain ⟨e, e1, e2⟩ := hg.2.2 t (by omega)
    have h2 := (hget t ht).2
    simp only [List.get_eq_getElem] at h2
    refine ⟨_, ?_, (add_sub_cancel _ _).symm⟩
    have hsj : Small (2 ^ n) S (cls (2 ^ n) (sk.getD j [])) := by
      rw [getD_eq_getElem' _ _ _ (show j < sk.length by rw [hsk.1]; exact hj)]
      exact hS _ (List.getElem_mem _)
    have key : phG (2 ^ n) sk row[t] - -(M * cls (2 ^ n) (sk.getD j [])) * em (2 ^ n) (BitVec.ofNat W (2 ^ (W - l * (t + 1)))) =
        -(cls (2 ^ n) (sk.getD j []) * e) + (phG (2 ^ n) sk row[t] + cls (2 ^ n) (sk.getD j []) * phG (2 ^ n) sk glev[t]) := by
      rw [e2]; ring
    rw [key, ssBound]
    exact ((hsj.mul e1).neg.add h2).mono (by omega)

theorem ssRow_spec {n d S Es : Nat} {r : Radix} (hl : 0 < r.log) (hc : 0 < r.count) (hlt : r.log * r.count < W) (sk : List (List (BitVec W)))
    (hsk : KeyFor sk d (2 ^ n)) (hS : ∀ s ∈ sk, Small (2 ^ n) S (cls (2 ^ n) s)) (ssk : List (List (Glwe (BitVec W))))
    (hssk : SskOk d (2 ^ n) r.log r.count Es sk ssk) (j : Nat) (hj : j < d) : ∀ (xs ys : List (Glwe (BitVec W))) (p : List (BitVec W)),
    xs.length = ys.length → (∀ x ∈ xs, x.valid d (2 ^ n)) →
    ∃ out q, ssRow d (2 ^ n) r ssk j xs ys (encAt d (2 ^ n) j p) = some (out, encAt d (2 ^ n) j q) ∧
      List.Forall₂ (fun x (y : Glwe (BitVec W)) => y.valid d (2 ^ n) ∧
        Small (2 ^ n) (2 ^ n * (S * (d * (2 ^ n * (S * 2 ^ (W - r.log * r.count - 1))))) + d * (r.count * (2 ^ n * (2 ^ (r.log - 1) * Es))))
          (phG (2 ^ n) sk y + cls (2 ^ n) (sk.getD j []) * phG (2 ^ n) sk x)) xs out
  | [], [], p, _, _ => ⟨[], p, by simp [ssRow], .nil⟩
  | [], _ :: _, _, h, _ => by simp at h
  | _ :: _, [], _, h, _ => by simp at h
  | x :: xs, y :: ys, p, hlen, hx => by
    obtain ⟨z, z1, z2, z3⟩ := ssMad_spec hl hc hlt sk hsk hS ssk hssk j hj x (hx x (by simp))
    obtain ⟨out, q, o1, o2⟩ := ssRow_spec hl hc hlt sk hsk hS ssk hssk j hj xs ys x.b (by simpa using hlen) fun w hw => hx w (by simp [hw])
    refine ⟨z :: out, q, ?_, .cons ⟨z2, z3⟩ o2⟩
    rw [ssRow, fillA_encAt p x.b hj (hx x (by simp)).2.2]
    simp only [z1, o1]

theorem zipAssign_snd {A : Type} (row glev : List A) (h : row.length = glev.length) : zipAssign (fun _ x => x) row glev = glev := by
  rw [zipAssign_eq _ _ _ h]
  apply List.ext_getElem (by simp [h])
  intro i h1 h2
  simp

theorem ssRows_spec {n d S E0 Es : Nat} {r : Radix} (hl : 0 < r.log) (hc : 0 < r.count) (hlt : r.log * r.count < W) (sk : List (List (BitVec W)))
    (hsk : KeyFor sk d (2 ^ n)) (hS : ∀ s ∈ sk, Small (2 ^ n) S (cls (2 ^ n) s)) (ssk : List (List (Glwe (BitVec W))))
    (hssk : SskOk d (2 ^ n) r.log r.count Es sk ssk) {l c : Nat} (M : Nega (BitVec W) (2 ^ n)) (glev : List (Glwe (BitVec W)))
    (hg : GlevOk d (2 ^ n) l c E0 sk M glev) : ∀ (j : Nat) (rows : List (List (Glwe (BitVec W)))) (p : List (BitVec W)), j + rows.length = d + 1 → j ≤ d →
    (∀ row ∈ rows, row.length = c) →
    ∃ out, ssRows d (2 ^ n) r ssk glev j rows (encAt d (2 ^ n) (((j : Int) - 1) % (d : Int)).toNat p) = some out ∧
      List.Forall₂ (GlevOk d (2 ^ n) l c (E0 + ssBound W d (2 ^ n) r S E0 Es) sk) (ggswMsgs (2 ^ n) M (sk.drop j)) out
  | j, [], _, h, hj, _ => by simp at h; omega
  | j, row :: rows, p, h, hj, hr => by
    rcases Nat.lt_or_ge j d with hjd | hjd
    · have hidx : (((j : Int) - 1) % (d : Int)).toNat < d := by
        have h1 := Int.emod_nonneg ((j : Int) - 1) (show (d : Int) ≠ 0 by omega)
        have h2 := Int.emod_lt_of_pos ((j : Int) - 1) (show (0 : Int) < d by omega)
        omega
      obtain ⟨y, q, y1, y2⟩ := ssRow_spec hl hc hlt sk hsk hS ssk hssk j hjd glev row (List.replicate (2 ^ n) 0)
        (by rw [hg.1, hr row (by simp)]) hg.2.1
      have hq : ((((j + 1 : Nat) : Int) - 1) % (d : Int)).toNat = j := by
        rw [Nat.cast_add, Nat.cast_one, add_sub_cancel_right, Int.emod_eq_of_lt (by omega) (by omega)]; omega
      obtain ⟨out, o1, o2⟩ := ssRows_spec hl hc hlt sk hsk hS ssk hssk M glev hg (j + 1) rows q (by simp at h; omega) (by omega)
        fun w hw => hr w (by simp [hw])
      rw [hq] at o1
      refine ⟨y :: out, ?_, ?_⟩
      · rw [ssRows, if_neg (by omega), zeroA_encAt (j := j) p hidx]
        simp only [y1, o1]
      · rw [ggswMsgs, List.drop_eq_getElem_cons (by rw [hsk.1]; exact hjd), List.map_cons, List.cons_append]
        refine .cons ?_ o2
        have := ss_row sk hsk hS M j hjd glev y hg y2
        rw [getD_eq_getElem' _ _ _ (show j < sk.length by rw [hsk.1]; exact hjd)] at this
        exact this.mono (by omega)
    · have hjd' : j = d := by omega
      subst hjd'
      have hnil : rows = [] := by
        simp only [List.length_cons] at h
        exact List.length_eq_zero_iff.1 (by omega)
      subst hnil
      refine ⟨[glev], ?_, ?_⟩
      · rw [ssRows, if_pos rfl, ssRows]
        simp only [zipAssign_snd row glev (by rw [hg.1, hr row (by simp)])]
      · rw [ggswMsgs, List.drop_eq_nil_of_le (by rw [hsk.1])]
        exact .cons (hg.mono (by omega)) .nil

theorem glweZero_encAt (d N i : Nat) : glweZero d N = encAt (W := W) d N i (List.replicate N 0) := by
  rw [glweZero, encAt]
  simp only [Glwe.mk.injEq, and_true]
  apply List.ext_getElem (by simp)
  intro t h1 h2
  simp [List.getElem_set]

/-- **Scheme switching on phases.** -/
theorem schemeSwitch_spec {n d S E0 Es : Nat} {r rg : Radix} (hl : 0 < r.log) (hc : 0 < r.count) (hlt : r.log * r.count < W) (sk : List (List (BitVec W)))
    (hsk : KeyFor sk d (2 ^ n)) (hS : ∀ s ∈ sk, Small (2 ^ n) S (cls (2 ^ n) s)) (ssk : List (List (Glwe (BitVec W))))
    (hssk : SskOk d (2 ^ n) r.log r.count Es sk ssk) (M : Nega (BitVec W) (2 ^ n)) (glev : List (Glwe (BitVec W)))
    (hg : GlevOk d (2 ^ n) rg.log rg.count E0 sk M glev) (out : List (List (Glwe (BitVec W)))) (hout : out.length = d + 1) (hrow : ∀ row ∈ out, row.length = rg.count) :
    ∃ g, schemeSwitch d (2 ^ n) rg r out glev ssk = some g ∧ GgswOk d (2 ^ n) rg.log rg.count (E0 + ssBound W d (2 ^ n) r S E0 Es) sk M g := by
  obtain ⟨g, g1, g2⟩ := ssRows_spec hl hc hlt sk hsk hS ssk hssk M glev hg 0 out (List.replicate (2 ^ n) 0) (by omega) (by omega) hrow
  rw [← glweZero_encAt] at g1
  rw [List.drop_zero] at g2
  exact ⟨g, by rw [schemeSwitch, if_pos ⟨ssk_length hssk, hout, hrow, hg.1⟩]; exact g1, g2⟩

theorem ssFftRow_spec {n d S Es : Nat} {r : Radix} (hl : 0 < r.log) (hc : 0 < r.count) (hlt : r.log * r.count < W) (sk : List (List (BitVec W)))
    (hsk : KeyFor sk d (2 ^ n)) (hS : ∀ s ∈ sk, Small (2 ^ n) S (cls (2 ^ n) s)) (ssk : List (List (Glwe (BitVec W))))
    (hssk : SskOk d (2 ^ n) r.log r.count Es sk ssk) (j : Nat) (hj : j < d) : ∀ (xs ys : List (Glwe (BitVec W))),
    xs.length = ys.length → (∀ x ∈ xs, x.valid d (2 ^ n)) → (∀ y ∈ ys, ∃ p, y = encAt d (2 ^ n) j p) →
    ∃ out, ssFftRow d (2 ^ n) r ssk j ys xs = some out ∧
      List.Forall₂ (fun x (y : Glwe (BitVec W)) => y.valid d (2 ^ n) ∧
        Small (2 ^ n) (2 ^ n * (S * (d * (2 ^ n * (S * 2 ^ (W - r.log * r.count - 1))))) + d * (r.count * (2 ^ n * (2 ^ (r.log - 1) * Es))))
          (phG (2 ^ n) sk y + cls (2 ^ n) (sk.getD j []) * phG (2 ^ n) sk x)) xs out
  | [], [], _, _, _ => ⟨[], by simp [ssFftRow], .nil⟩
  | [], _ :: _, h, _, _ => by simp at h
  | _ :: _, [], h, _, _ => by simp at h
  | x :: xs, y :: ys, hlen, hx, hy => by
    obtain ⟨p, rfl⟩ := hy y (by simp)
    obtain ⟨z, z1, z2, z3⟩ := ssMad_spec hl hc hlt sk hsk hS ssk hssk j hj x (hx x (by simp))
    obtain ⟨out, o1, o2⟩ := ssFftRow_spec hl hc hlt sk hsk hS ssk hssk j hj xs ys (by simpa using hlen) (fun w hw => hx w (by simp [hw]))
      fun w hw => hy w (by simp [hw])
    refine ⟨z :: out, ?_, .cons ⟨z2, z3⟩ o2⟩
    rw [ssFftRow, ssFftOp, if_neg (by omega), fillA_encAt p x.b hj (hx x (by simp)).2.2]
    simp only [z1, o1]

theorem ssFftRow_last {n d : Nat} {r : Radix} (ssk : List (List (Glwe (BitVec W)))) : ∀ (xs ys : List (Glwe (BitVec W))),
    xs.length = ys.length → (∀ x ∈ xs, x.valid d (2 ^ n)) → (∀ y ∈ ys, y.a.length = d) → ssFftRow d (2 ^ n) r ssk d ys xs = some xs
  | [], [], _, _, _ => by simp [ssFftRow]
  | [], _ :: _, h, _, _ => by simp at h
  | _ :: _, [], h, _, _ => by simp at h
  | x :: xs, y :: ys, hlen, hx, hy => by
    rw [ssFftRow, ssFftOp, if_pos rfl, zipAssign_snd _ _ (by rw [hy y (by simp), (hx x (by simp)).1]),
      ssFftRow_last ssk xs ys (by simpa using hlen) (fun w hw => hx w (by simp [hw])) fun w hw => hy w (by simp [hw])]

/-- the output is such that nothing stale is accumulated: in row `j < d` only the mask polynomial `j` may be nonzero -/
def FftOutOk (d N : Nat) (out : List (List (Glwe (BitVec W)))) : Prop :=
  ∀ j row, out[j]? = some row → if j < d then ∀ y ∈ row, ∃ p, y = encAt d N j p else ∀ y ∈ row, y.a.length = d

theorem ssFftRows_spec {n d S E0 Es : Nat} {r : Radix} (hl : 0 < r.log) (hc : 0 < r.count) (hlt : r.log * r.count < W) (sk : List (List (BitVec W)))
    (hsk : KeyFor sk d (2 ^ n)) (hS : ∀ s ∈ sk, Small (2 ^ n) S (cls (2 ^ n) s)) (ssk : List (List (Glwe (BitVec W))))
    (hssk : SskOk d (2 ^ n) r.log r.count Es sk ssk) {l c : Nat} (M : Nega (BitVec W) (2 ^ n)) (glev : List (Glwe (BitVec W)))
    (hg : GlevOk d (2 ^ n) l c E0 sk M glev) : ∀ (j : Nat) (rows : List (List (Glwe (BitVec W)))), j + rows.length = d + 1 → j ≤ d →
    (∀ row ∈ rows, row.length = c) → (∀ t row, rows[t]? = some row → if j + t < d then ∀ y ∈ row, ∃ p, y = encAt d (2 ^ n) (j + t) p else ∀ y ∈ row, y.a.length = d) →
    ∃ out, ssFftRows d (2 ^ n) r ssk glev j rows = some out ∧
      List.Forall₂ (GlevOk d (2 ^ n) l c (E0 + ssBound W d (2 ^ n) r S E0 Es) sk) (ggswMsgs (2 ^ n) M (sk.drop j)) out
  | j, [], h, hj, _, _ => by simp at h; omega
  | j, row :: rows, h, hj, hr, hb => by
    have h0 := hb 0 row rfl
    rcases Nat.lt_or_ge j d with hjd | hjd
    · rw [Nat.add_zero, if_pos hjd] at h0
      obtain ⟨y, y1, y2⟩ := ssFftRow_spec hl hc hlt sk hsk hS ssk hssk j hjd glev row (by rw [hg.1, hr row (by simp)]) hg.2.1 h0
      obtain ⟨out, o1, o2⟩ := ssFftRows_spec hl hc hlt sk hsk hS ssk hssk M glev hg (j + 1) rows (by simp at h; omega) (by omega)
        (fun w hw => hr w (by simp [hw])) (fun t w hw => by rw [show j + 1 + t = j + (t + 1) by omega]; exact hb (t + 1) w (by simpa using hw))
      refine ⟨y :: out, by rw [ssFftRows, y1]; simp only [o1], ?_⟩
      rw [ggswMsgs, List.drop_eq_getElem_cons (by rw [hsk.1]; exact hjd), List.map_cons, List.cons_append]
      refine .cons ?_ o2
      have := ss_row sk hsk hS M j hjd glev y hg y2
      rw [getD_eq_getElem' _ _ _ (show j < sk.length by rw [hsk.1]; exact hjd)] at this
      exact this.mono (by omega)
    · rw [Nat.add_zero, if_neg (by omega)] at h0
      have hjd' : j = d := by omega
      subst hjd'
      have hnil : rows = [] := by
        simp only [List.length_cons] at h
        exact List.length_eq_zero_iff.1 (by omega)
      subst hnil
      refine ⟨[glev], by rw [ssFftRows, ssFftRow_last ssk glev row (by rw [hg.1, hr row (by simp)]) hg.2.1 h0, ssFftRows], ?_⟩
      rw [ggswMsgs, List.drop_eq_nil_of_le (by rw [hsk.1])]
      exact .cons (hg.mono (by omega)) .nil

/-- **Fourier version**, for an output that holds nothing stale. -/
theorem schemeSwitchFft_spec {n d S E0 Es : Nat} {r rg : Radix} (hl : 0 < r.log) (hc : 0 < r.count) (hlt : r.log * r.count < W) (sk : List (List (BitVec W)))
    (hsk : KeyFor sk d (2 ^ n)) (hS : ∀ s ∈ sk, Small (2 ^ n) S (cls (2 ^ n) s)) (ssk : List (List (Glwe (BitVec W))))
    (hssk : SskOk d (2 ^ n) r.log r.count Es sk ssk) (M : Nega (BitVec W) (2 ^ n)) (glev : List (Glwe (BitVec W)))
    (hg : GlevOk d (2 ^ n) rg.log rg.count E0 sk M glev) (out : List (List (Glwe (BitVec W)))) (hout : out.length = d + 1) (hrow : ∀ row ∈ out, row.length = rg.count)
    (hz : FftOutOk d (2 ^ n) out) :
    ∃ g, schemeSwitchFft d (2 ^ n) rg r out glev ssk = some g ∧ GgswOk d (2 ^ n) rg.log rg.count (E0 + ssBound W d (2 ^ n) r S E0 Es) sk M g := by
  obtain ⟨g, g1, g2⟩ := ssFftRows_spec hl hc hlt sk hsk hS ssk hssk M glev hg 0 out (by omega) (by omega) hrow (fun t row h => by
    rw [Nat.zero_add]; exact hz t row h)
  rw [List.drop_zero] at g2
  exact ⟨g, by rw [schemeSwitchFft, if_pos ⟨ssk_length hssk, hout, hrow, hg.1⟩]; exact g1, g2⟩

end Spf.Tfhe
