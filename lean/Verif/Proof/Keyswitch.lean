import Verif.Proof.Gadget
import Verif.Model.Gadget
/-! LWE keyswitching: key generation, the gadget loop, the switched ciphertext. -/
namespace Spf.Tfhe
open Spf.Spec

variable {W N : Nat}

/-- `b - <a, s>` -/
def ph (sk : List (BitVec W)) (ct : Lwe (BitVec W)) : BitVec W := ct.b - dotAcc ct.a sk 0

/-- the constant polynomial -/
noncomputable def em (N : Nat) (x : BitVec W) : Nega (BitVec W) N := AdjoinRoot.of _ x

theorem cls_single (x : BitVec W) : cls 1 [x] = em 1 x := by rw [cls_cons, cls_nil, mul_zero, add_zero]; rfl

theorem small_em {B : Nat} (e : Int) (h : e.natAbs ≤ B) : Small 1 B (em 1 (BitVec.ofInt W e)) :=
  ⟨[e], rfl, by simpa using h, by rw [List.map_singleton, cls_single]⟩

theorem near_of_small {B : Nat} {x y : BitVec W} (h : Small 1 B (em 1 x - em 1 y)) : Near B x y := by
  rw [← cls_single, ← cls_single] at h
  have := nearPoly_of_small (p := [x]) (q := [y]) rfl rfl h
  rw [NearPoly, List.forall₂_cons] at this
  exact this.1

theorem RowsG_of_index {E : Nat} {M q : Nega (BitVec W) N} : ∀ (b : Nega (BitVec W) N) (ps : List (Nega (BitVec W) N)),
    (∀ t (h : t < ps.length), ∃ e, Small N E e ∧ ps[t] = M * (b * q ^ t) + e) → RowsG N E M q b ps
  | _, [], _ => trivial
  | b, p :: ps, h => by
    refine ⟨?_, RowsG_of_index (b * q) ps fun t ht => ?_⟩
    · obtain ⟨e, h1, h2⟩ := h 0 (by simp)
      exact ⟨e, h1, by simpa using h2⟩
    · obtain ⟨e, h1, h2⟩ := h (t + 1) (by simpa using ht)
      refine ⟨e, h1, ?_⟩
      rw [List.getElem_cons_succ] at h2
      rw [h2, pow_succ]; ring

/-- rows in the order of generation (column `j` scaled by `2^(W - log*(j+1))`), reversed -/
theorem RowsG_reverse {E l c : Nat} {M : Nega (BitVec W) N} (hlc : l * c ≤ W) (ps : List (Nega (BitVec W) N)) (hlen : ps.length = c)
    (h : ∀ t (ht : t < ps.length), ∃ e, Small N E e ∧ ps[t] = M * em N (BitVec.ofNat W (2 ^ (W - l * (t + 1)))) + e) :
    RowsG N E M (em N (BitVec.ofNat W (2 ^ l))) (em N (BitVec.ofNat W (2 ^ (W - l * c)))) ps.reverse := by
  apply RowsG_of_index
  intro t ht
  rw [List.length_reverse] at ht
  obtain ⟨e, h1, h2⟩ := h (ps.length - 1 - t) (by omega)
  refine ⟨e, h1, ?_⟩
  rw [List.getElem_reverse, h2]
  congr 2
  rw [em, em, em, ← map_pow, ← map_mul]
  congr 1
  have e1 : ∀ t, (BitVec.ofNat W (2 ^ l)) ^ t = BitVec.ofNat W (2 ^ (l * t)) := by
    intro t
    induction t with
    | zero => rfl
    | succ t ih => rw [pow_succ, ih, ← BitVec.ofNat_mul, ← Nat.pow_add, Nat.mul_succ]
  rw [e1, ← BitVec.ofNat_mul, ← Nat.pow_add]
  congr 2
  have e2 : ps.length - 1 - t + 1 = c - t := by omega
  rw [e2]
  have e3 : l * (c - t) + l * t = l * c := by rw [← Nat.mul_add]; congr 1; omega
  omega

theorem scalarMad_ph {n : Nat} (sk : List (BitVec W)) (c a : Lwe (BitVec W)) (s : BitVec W) (hc : c.a.length = n) (ha : a.a.length = n) :
    ∃ d, lweScalarMad c s a = some d ∧ d.a.length = n ∧ ph sk d = ph sk c + s * ph sk a := by
  refine ⟨_, by rw [lweScalarMad, if_pos (by omega)], by rw [zipAssign_length]; exact hc, ?_⟩
  simp only [ph]
  rw [dotAcc_mad s c.a a.a sk (by omega)]; ring

theorem levMad_spec {n : Nat} (sk : List (BitVec W)) : ∀ (ds : List (BitVec W)) (cur : BitVec W) (rows : List (Lwe (BitVec W))) (c : Lwe (BitVec W)),
    ds.length = rows.length → c.a.length = n → (∀ r ∈ rows, r.a.length = n) →
    ∃ d, levMad ds cur rows c = some d ∧ d.a.length = n ∧
      em 1 (ph sk d) = em 1 (ph sk c) + sumMul (ds.map (em 1)) (rows.map fun r => em 1 (ph sk r))
  | [], cur, [], c, _, hc, _ => ⟨c, by simp [levMad], hc, by simp [sumMul]⟩
  | [], _, _ :: _, _, h, _, _ => by simp at h
  | _ :: _, _, [], _, h, _, _ => by simp at h
  | d :: ds, cur, r :: rows, c, hl, hc, hr => by
    obtain ⟨x, h1, h2, h3⟩ := scalarMad_ph sk c r d hc (hr r (by simp))
    obtain ⟨y, h4, h5, h6⟩ := levMad_spec sk ds d rows x (by simpa using hl) h2 fun z hz => hr z (by simp [hz])
    refine ⟨y, by rw [levMad, h1]; exact h4, h5, ?_⟩
    rw [h6, h3, List.map_cons, List.map_cons, sumMul]
    simp only [em, map_add, map_mul]
    ring

theorem gadgetFactor_some {l c j : Nat} (hW : W ≤ 64) (hl : 0 < l) (hlc : l * c ≤ W) (hj : j < c) :
    gadgetFactor W l j = some (BitVec.ofNat W (2 ^ (W - l * (j + 1)))) := by
  have h1 : l * (j + 1) ≤ l * c := Nat.mul_le_mul_left l hj
  have h2 : 0 < l * (j + 1) := Nat.mul_pos hl (by omega)
  rw [gadgetFactor, if_pos ⟨by omega, by omega⟩]

theorem kskMsg_some {checked : Bool} {l j : Nat} (hl : l * (j + 1) ≤ W) (hl0 : 0 < l) (s : BitVec W) (hs : checked = true → s.toNat < 2 ^ l) :
    kskMsg checked (BitVec.ofNat W (2 ^ (W - l * (j + 1)))) s = some (BitVec.ofNat W (2 ^ (W - l * (j + 1))) * s) := by
  rw [kskMsg, if_neg]
  rintro ⟨hc, hn⟩
  apply hn
  have hle : l ≤ l * (j + 1) := Nat.le_mul_of_pos_right _ (by omega)
  have h1 : (BitVec.ofNat W (2 ^ (W - l * (j + 1)))).toNat = 2 ^ (W - l * (j + 1)) := by
    rw [BitVec.toNat_ofNat, Nat.mod_eq_of_lt (Nat.pow_lt_pow_right (by decide) (by omega))]
  rw [h1]
  calc 2 ^ (W - l * (j + 1)) * s.toNat < 2 ^ (W - l * (j + 1)) * 2 ^ l := Nat.mul_lt_mul_of_pos_left (hs hc) (Nat.two_pow_pos _)
    _ = 2 ^ (W - l * (j + 1) + l) := by rw [Nat.pow_add]
    _ ≤ 2 ^ W := Nat.pow_le_pow_right (by decide) (by omega)

theorem kskRow_spec {checked : Bool} {n l c : Nat} (hn : n ≠ 0) (hW : W ≤ 64) (hl : 0 < l) (hlc : l * c ≤ W) (sk : List (BitVec W)) (hsk : sk.length = n)
    (s : BitVec W) (hs : checked = true → s.toNat < 2 ^ l) (draws : Nat → List (BitVec W)) (noise : Nat → BitVec W)
    (hd : ∀ j, (draws j).length = n) : ∀ (j : Nat) (bufs : List (Lwe (BitVec W))), j + bufs.length ≤ c → (∀ b ∈ bufs, b.a.length = n) →
    ∃ row, kskRow checked n l sk s draws noise j bufs = some row ∧ row.length = bufs.length ∧ (∀ r ∈ row, r.a.length = n) ∧
      ∀ t (h : t < row.length), ph sk row[t] = BitVec.ofNat W (2 ^ (W - l * (j + t + 1))) * s + noise (j + t)
  | j, [], _, _ => ⟨[], rfl, rfl, by simp, by intro t h; simp at h⟩
  | j, buf :: bufs, hj, hb => by
    simp only [List.length_cons] at hj
    obtain ⟨row, h1, h2, h3, h4⟩ := kskRow_spec hn hW hl hlc sk hsk s hs draws noise hd (j + 1) bufs (by omega) fun b hb' => hb b (by simp [hb'])
    have hle : l * (j + 1) ≤ W := le_trans (Nat.mul_le_mul_left l (by omega)) hlc
    obtain ⟨e1, e2⟩ := lweEncLoop_spec buf.a sk (draws j) 0 (by rw [hb buf (by simp), hsk]) (by rw [hd, hsk])
    refine ⟨⟨draws j, dotAcc (draws j) sk 0 + (BitVec.ofNat W (2 ^ (W - l * (j + 1))) * s + noise j)⟩ :: row, ?_, by simp [h2], ?_, ?_⟩
    · rw [kskRow, gadgetFactor_some hW hl hlc (show j < c by omega)]
      simp only [kskMsg_some hle hl s hs, lweEncrypt, if_pos hn, h1, e1, e2, zero_add]
    · intro r hr
      simp only [List.mem_cons] at hr
      rcases hr with rfl | hr
      · exact hd j
      · exact h3 r hr
    · intro t ht
      cases t with
      | zero => simp only [List.getElem_cons_zero, ph, Nat.add_zero]; ring
      | succ t =>
        rw [List.getElem_cons_succ, h4 t (by simpa using ht)]
        rw [show j + 1 + t = j + (t + 1) by omega]

/-- one row of a keyswitch key for the key element `s` -/
def KskRowOk (n l c E : Nat) (sk : List (BitVec W)) (s : BitVec W) (row : List (Lwe (BitVec W))) : Prop :=
  row.length = c ∧ (∀ r ∈ row, r.a.length = n) ∧
    ∀ t (h : t < row.length), ∃ e : Int, e.natAbs ≤ E ∧ ph sk row[t] = BitVec.ofNat W (2 ^ (W - l * (t + 1))) * s + BitVec.ofInt W e

theorem kskRows_spec {checked : Bool} {n l c E : Nat} (hn : n ≠ 0) (hW : W ≤ 64) (hl : 0 < l) (hlc : l * c ≤ W) (sk : List (BitVec W)) (hsk : sk.length = n)
    (draws : Nat → Nat → List (BitVec W)) (noise : Nat → Nat → Int) (hd : ∀ i j, (draws i j).length = n) (hE : ∀ i j, (noise i j).natAbs ≤ E) :
    ∀ (i : Nat) (old : List (BitVec W)) (bufs : List (List (Lwe (BitVec W)))), old.length = bufs.length →
      (∀ s ∈ old, checked = true → s.toNat < 2 ^ l) → (∀ row ∈ bufs, row.length = c ∧ ∀ ct ∈ row, ct.a.length = n) →
      ∃ ksk, kskRows checked n l sk draws (fun i j => BitVec.ofInt W (noise i j)) i old bufs = some ksk ∧
        List.Forall₂ (KskRowOk n l c E sk) old ksk
  | i, [], [], _, _, _ => ⟨[], rfl, .nil⟩
  | i, [], _ :: _, h, _, _ => by simp at h
  | i, _ :: _, [], h, _, _ => by simp at h
  | i, s :: old, buf :: bufs, hlen, hs, hb => by
    obtain ⟨ksk, h1, h2⟩ := kskRows_spec hn hW hl hlc sk hsk draws noise hd hE (i + 1) old bufs (by simpa using hlen)
      (fun x hx => hs x (by simp [hx])) (fun x hx => hb x (by simp [hx]))
    obtain ⟨b1, b2⟩ := hb buf (by simp)
    obtain ⟨row, r1, r2, r3, r4⟩ := kskRow_spec (c := c) hn hW hl hlc sk hsk s (hs s (by simp)) (draws i) (fun j => BitVec.ofInt W (noise i j)) (hd i) 0 buf
      (by omega) b2
    refine ⟨row :: ksk, by rw [kskRows, r1, h1], .cons ⟨by omega, r3, fun t ht => ⟨noise i t, hE i t, ?_⟩⟩ h2⟩
    rw [r4 t ht]; simp

/-- phases `Σ a_i s_i` up to rounding and noise -/
theorem ksLoop_spec {n S E : Nat} {r : Radix} (hl : 0 < r.log) (hc : 0 < r.count) (hlt : r.log * r.count < W) (sk : List (BitVec W)) :
    ∀ (as old : List (BitVec W)) (ksk : List (List (Lwe (BitVec W)))) (acc : Lwe (BitVec W)), as.length = old.length →
      List.Forall₂ (KskRowOk n r.log r.count E sk) old ksk → acc.a.length = n → (∀ s ∈ old, s.toInt.natAbs ≤ S) →
      ∃ out, ksLoop r as ksk acc = some out ∧ out.a.length = n ∧
        Small 1 (as.length * (S * 2 ^ (W - r.log * r.count - 1) + r.count * (2 ^ (r.log - 1) * E)))
          (em 1 (ph sk out) - em 1 (ph sk acc) - em 1 (dotAcc as old 0))
  | [], [], _, acc, _, .nil, ha, _ => ⟨acc, rfl, ha, by
      simp only [List.length_nil, Nat.zero_mul, dotAcc, sub_self, em, map_zero]; exact small_zero⟩
  | [], _ :: _, _, _, h, _, _, _ => by simp at h
  | _ :: _, [], _, _, h, _, _, _ => by simp at h
  | a :: as, s :: old, row :: ksk, acc, hlen, .cons hrow hrest, hacc, hS => by
    obtain ⟨p1, p2, p3⟩ := hrow
    obtain ⟨ds, d1, d2, d3, d4, err, d5, d6⟩ := polyDigits_spec (N := 1) hl hc hlt [a] rfl
    have hds : ds.map (cls 1) = (ds.map fun d => d.getD 0 0).map (em 1) := by
      rw [List.map_map]
      apply List.map_congr_left
      intro d hd
      have := d3 d hd
      match d, this with
      | [x], _ => simp [cls_single]
    obtain ⟨x, x1, x2, x3⟩ := levMad_spec sk (ds.map fun d => d.getD 0 0) 0 row.reverse acc (by simp [d2, p1]) hacc
      (fun z hz => p2 z (by simpa using hz))
    obtain ⟨out, o1, o2, o3⟩ := ksLoop_spec hl hc hlt sk as old ksk x (by simpa using hlen) hrest x2 fun z hz => hS z (by simp [hz])
    refine ⟨out, by rw [ksLoop, d1]; simp only [x1]; exact o1, o2, ?_⟩
    have hR : RowsG 1 E (em 1 s) (em 1 (BitVec.ofNat W (2 ^ r.log))) (em 1 (BitVec.ofNat W (2 ^ (W - r.log * r.count))))
        ((row.map fun z => em 1 (ph sk z)).reverse) := by
      apply RowsG_reverse (by omega) _ (by simpa using p1)
      intro t ht
      obtain ⟨e, he, hp⟩ := p3 t (by simpa using ht)
      refine ⟨em 1 (BitVec.ofInt W e), small_em e he, ?_⟩
      rw [List.getElem_map, hp]
      simp only [em, map_add, map_mul]; ring
    obtain ⟨ν, n1, n2⟩ := sumMul_rows _ (ds.map (cls 1)) _ hR (by simp [d2, p1]) d4
    rw [← List.map_reverse, hds] at n2
    have hss : Small 1 S (em 1 s) := by
      have := small_em (W := W) s.toInt (hS s (by simp))
      rwa [BitVec.ofInt_toInt] at this
    have hse := hss.mul d5
    rw [← hds] at n2
    rw [show gsum (em 1 (BitVec.ofNat W (2 ^ r.log))) (em 1 (BitVec.ofNat W (2 ^ (W - r.log * r.count)))) (ds.map (cls 1)) = cls 1 [a] - err from d6,
      cls_single] at n2
    rw [← hds, n2] at x3
    have key : em 1 (ph sk out) - em 1 (ph sk acc) - em 1 (dotAcc (a :: as) (s :: old) 0)
        = (em 1 (ph sk out) - em 1 (ph sk x) - em 1 (dotAcc as old 0)) + (ν - em 1 s * err) := by
      rw [x3, dotAcc_cons]
      simp only [em, map_add, map_mul]; ring
    rw [key, List.length_cons, Nat.add_mul, Nat.one_mul]
    refine o3.add ((n1.sub hse).mono ?_)
    rw [List.length_map, d2]
    simp only [Nat.one_mul]
    omega

end Spf.Tfhe
