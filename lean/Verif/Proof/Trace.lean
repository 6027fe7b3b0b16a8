import Verif.Proof.GlweKs
import Verif.Proof.Pbs
/-! The homomorphic trace, on phases. -/
namespace Spf.Tfhe
open Spf.Spec Spf.Props

variable {W N : Nat}

/-- the coefficients at multiples of `2^i`, times `2^i`; zero elsewhere -/
def keepMul (i : Nat) (p : List (BitVec W)) : List (BitVec W) :=
  (List.range p.length).map fun m => if m % 2 ^ i = 0 then BitVec.ofNat W (2 ^ i) * p.getD m 0 else 0

theorem keepMul_length (i : Nat) (p : List (BitVec W)) : (keepMul i p).length = p.length := by simp [keepMul]

theorem keepMul_getD (i : Nat) (p : List (BitVec W)) (m : Nat) (h : m < p.length) :
    (keepMul i p).getD m 0 = if m % 2 ^ i = 0 then BitVec.ofNat W (2 ^ i) * p.getD m 0 else 0 := by
  simp [keepMul, List.getD, h]

theorem keepMul_step {n j : Nat} (hj : j < n) (p : List (BitVec W)) (hp : p.length = 2 ^ n) (hk : (2 ^ (n - j) + 1) % 2 = 1) :
    cls (2 ^ n) (keepMul j p) + sig (2 ^ n) (2 ^ (n - j) + 1) (cls (2 ^ n) (keepMul j p)) = cls (2 ^ n) (keepMul (j + 1) p) := by
  rw [sig_cls hk, mk_comp_sum, cls_eq_sum, cls_eq_sum, keepMul_length, keepMul_length, ← Finset.sum_add_distrib]
  apply Finset.sum_congr rfl
  intro m hm
  rw [Finset.mem_range] at hm
  rw [keepMul_getD _ _ _ hm, keepMul_getD _ _ _ hm]
  by_cases h : m % 2 ^ j = 0
  · obtain ⟨t, rfl⟩ := Nat.dvd_of_mod_eq_zero h
    have hx : (xcls (2 ^ n) : Nega (BitVec W) (2 ^ n)) ^ (2 ^ j * t * (2 ^ (n - j) + 1)) = (-1) ^ t * xcls (2 ^ n) ^ (2 ^ j * t) := by
      have e : 2 ^ j * t * (2 ^ (n - j) + 1) = 2 ^ n * t + 2 ^ j * t := by
        have : 2 ^ n = 2 ^ j * 2 ^ (n - j) := by rw [← Nat.pow_add]; congr 1; omega
        rw [this]; ring
      rw [e, pow_add, pow_mul, xcls_pow]
    have hm2 : (2 ^ j * t % 2 ^ (j + 1) = 0) ↔ t % 2 = 0 := by
      rw [Nat.pow_succ, Nat.mul_mod_mul_left]
      have := Nat.two_pow_pos j
      constructor
      · intro h; rcases Nat.mul_eq_zero.1 h with h | h
        · omega
        · exact h
      · intro h; rw [h, Nat.mul_zero]
    rw [hx, if_pos h]
    by_cases ht : t % 2 = 0
    · rw [if_pos (hm2.2 ht), Even.neg_one_pow (Nat.even_iff.mpr ht), one_mul, ← add_mul, ← map_add]
      congr 2
      rw [Nat.pow_succ, Nat.mul_two, BitVec.ofNat_add]; ring
    · rw [if_neg (fun h => ht (hm2.1 h)), Odd.neg_one_pow (Nat.odd_iff.mpr (by omega)), map_zero]; ring
  · have h2 : m % 2 ^ (j + 1) ≠ 0 := by
      intro h'
      apply h
      exact Nat.mod_eq_zero_of_dvd (dvd_trans (pow_dvd_pow 2 (Nat.le_succ j)) (Nat.dvd_of_mod_eq_zero h'))
    rw [if_neg h, if_neg h2, map_zero]; ring

theorem keepMul_zero (p : List (BitVec W)) : keepMul 0 p = p := by
  apply List.ext_getElem (keepMul_length _ _)
  intro i h1 h2
  have := keepMul_getD 0 p i h2
  rw [getD_eq_getElem' _ _ _ h1, getD_eq_getElem' _ _ _ h2] at this
  rw [this]
  simp only [Nat.pow_zero, Nat.mod_one, if_pos]
  show (1 : BitVec W) * _ = _
  rw [one_mul]

theorem keepMul_last {n : Nat} (p : List (BitVec W)) (hp : p.length = 2 ^ n) :
    keepMul n p = (BitVec.ofNat W (2 ^ n) * p.getD 0 0) :: List.replicate (2 ^ n - 1) 0 := by
  have hpos := Nat.two_pow_pos n
  apply List.ext_getElem (by rw [keepMul_length, hp]; simp; omega)
  intro i h1 h2
  have hi : i < p.length := by rwa [keepMul_length] at h1
  have := keepMul_getD n p i hi
  rw [getD_eq_getElem' _ _ _ h1] at this
  rw [this]
  cases i with
  | zero => simp
  | succ i => rw [Nat.mod_eq_of_lt (by omega), if_neg (by omega)]; simp

/-- `skk` is the key under `X -> X^k` -/
def KeyPow (n k : Nat) (sk skk : List (List (BitVec W))) : Prop :=
  List.Forall₂ (fun a q => q.length = 2 ^ n ∧ cls (2 ^ n) q = sig (2 ^ n) k (cls (2 ^ n) a)) sk skk

/-- the keyswitch key number `i` of an automorphism key -/
def AkOk (d n : Nat) (r : Radix) (E : Nat) (sk : List (List (BitVec W))) (i : Nat) (ksk : List (List (Glwe (BitVec W)))) : Prop :=
  ∃ skk, KeyPow n (traceExp (2 ^ n) i) sk skk ∧ List.Forall₂ (GlevOk d (2 ^ n) r.log r.count E sk) (skk.map (cls (2 ^ n))) ksk

theorem keyPow_small {n k S : Nat} (hk : k % 2 = 1) {sk skk : List (List (BitVec W))} (h : KeyPow n k sk skk)
    (hS : ∀ s ∈ sk, Small (2 ^ n) S (cls (2 ^ n) s)) : ∀ s ∈ skk, Small (2 ^ n) S (cls (2 ^ n) s) := by
  intro s hs
  obtain ⟨i, hi, rfl⟩ := List.getElem_of_mem hs
  have := (List.forall₂_iff_get.1 h).2 i (by rw [h.length_eq]; exact hi) hi
  simp only [List.get_eq_getElem] at this
  rw [this.2]
  exact (hS _ (List.getElem_mem _)).sig hk

theorem keyPow_keyFor {n k d : Nat} {sk skk : List (List (BitVec W))} (h : KeyPow n k sk skk) (hsk : KeyFor sk d (2 ^ n)) : KeyFor skk d (2 ^ n) := by
  refine ⟨by rw [← h.length_eq, hsk.1], fun s hs => ?_⟩
  obtain ⟨i, hi, rfl⟩ := List.getElem_of_mem hs
  exact ((List.forall₂_iff_get.1 h).2 i (by rw [h.length_eq]; exact hi) hi).1

theorem traceExp_eq {n j : Nat} (hj : j < n) : traceExp (2 ^ n) (j + 1) = 2 ^ (n - j) + 1 := by
  rw [traceExp, Nat.add_sub_cancel, Nat.pow_div (le_of_lt hj) (by decide)]

theorem traceExp_odd {n j : Nat} (hj : j < n) : (2 ^ (n - j) + 1) % 2 = 1 := by
  obtain ⟨m, hm⟩ : ∃ m, n - j = m + 1 := ⟨n - j - 1, by omega⟩
  rw [hm, Nat.pow_succ]; omega

theorem log2_pow (n : Nat) : Nat.log2 (2 ^ n) = n := Nat.log2_two_pow

theorem traceLoop_spec {n d E S F : Nat} {r : Radix} (hl : 0 < r.log) (hc : 0 < r.count) (hlt : r.log * r.count < W)
    (sk : List (List (BitVec W))) (hsk : KeyFor sk d (2 ^ n)) (hS : ∀ s ∈ sk, Small (2 ^ n) S (cls (2 ^ n) s)) (fe : Nat → Glwe (BitVec W))
    (hfe : ∀ i, FftErr d (2 ^ n) F (fe i)) (p : List (BitVec W)) (hp : p.length = 2 ^ n) :
    ∀ (j : Nat) (ksks : List (List (List (Glwe (BitVec W))))) (scratch out : Glwe (BitVec W)), j + ksks.length = n →
      (∀ t (h : t < ksks.length), AkOk d n r E sk (j + t + 1) ksks[t]) → scratch.valid d (2 ^ n) → out.valid d (2 ^ n) →
      Small (2 ^ n) ((2 ^ j - 1) * glweKsBound W d (2 ^ n) r S S E F) (phG (2 ^ n) sk out - cls (2 ^ n) (keepMul j p)) →
      ∃ res, traceLoop d (2 ^ n) r n fe (j + 1) scratch ksks out = some res ∧ res.valid d (2 ^ n) ∧
        Small (2 ^ n) ((2 ^ n - 1) * glweKsBound W d (2 ^ n) r S S E F) (phG (2 ^ n) sk res - cls (2 ^ n) (keepMul n p))
  | j, [], scratch, out, h, _, _, ho, hsm => ⟨out, rfl, ho, by simp at h; subst h; exact hsm⟩
  | j, ksk :: ksks, scratch, out, h, hak, hsc, ho, hsm => by
    have hN : isPow2 (2 ^ n) = true := isPow2_iff.mpr ⟨n, rfl⟩
    have hj : j < n := by simp at h; omega
    have hodd := traceExp_odd hj
    obtain ⟨skk, k1, k2⟩ := hak 0 (by simp)
    simp only [Nat.add_zero, List.getElem_cons_zero] at k1 k2
    rw [traceExp_eq hj] at k1
    obtain ⟨gk, g1, g2, g3⟩ := glwePowK_spec hodd scratch out hsc ho
    have g4 := g3 sk skk k1
    obtain ⟨f1, f2⟩ := hfe (j + 1)
    obtain ⟨sw, s1, s2, s3⟩ := glweKeyswitchFft_spec (F := F) hN hl hc hlt skk sk (keyPow_keyFor k1 hsk) hsk.1 (keyPow_small hodd k1 hS) hS ksk k2
      (fe (j + 1)) gk g2 f1 (fun a ha => small_of_bound (f1.2.1 a ha) (f2 a (by simp [ha]))) (small_of_bound f1.2.2 (f2 _ (by simp)))
    obtain ⟨o', a1, a2, a3⟩ := add_phase out sw sk ho s2
    have hnew : Small (2 ^ n) ((2 ^ (j + 1) - 1) * glweKsBound W d (2 ^ n) r S S E F) (phG (2 ^ n) sk o' - cls (2 ^ n) (keepMul (j + 1) p)) := by
      have e : phG (2 ^ n) sk o' - cls (2 ^ n) (keepMul (j + 1) p) =
          (phG (2 ^ n) sk out - cls (2 ^ n) (keepMul j p)) + (phG (2 ^ n) sk sw - phG (2 ^ n) skk gk) +
            sig (2 ^ n) (2 ^ (n - j) + 1) (phG (2 ^ n) sk out - cls (2 ^ n) (keepMul j p)) := by
        rw [a3, g4, ← keepMul_step hj p hp hodd, map_sub]; ring
      rw [e]
      refine ((hsm.add s3).add (hsm.sig hodd)).mono ?_
      have h1 : 2 ^ (j + 1) - 1 = (2 ^ j - 1) + 1 + (2 ^ j - 1) := by
        have := Nat.two_pow_pos j
        rw [Nat.pow_succ]; omega
      rw [h1, Nat.add_mul, Nat.add_mul, Nat.one_mul]
    obtain ⟨res, r1, r2, r3⟩ := traceLoop_spec hl hc hlt sk hsk hS fe hfe p hp (j + 1) ksks gk o' (by simp at h; omega) (fun t ht => by
        have := hak (t + 1) (by simpa using ht)
        rw [List.getElem_cons_succ] at this
        rwa [show j + (t + 1) + 1 = j + 1 + t + 1 by omega] at this) g2 a2 hnew
    refine ⟨res, ?_, r2, r3⟩
    rw [traceLoop, if_neg (by omega), traceExp_eq hj, g1]
    simp only [s1, a1]
    exact r1

/-- the products `coefficient * sign` of the key do not overflow -/
def SafeKey (checked : Bool) (sk : List (List (BitVec W))) : Prop := checked = true → ∀ s ∈ sk, ∀ x ∈ s, x = 0 ∨ x = 1

theorem keyPowK_some {checked : Bool} {k : Nat} (b s : List (BitVec W)) (h : checked = true → ∀ x ∈ s, x = 0 ∨ x = 1) : keyPowK checked b s k = polyPowK b s k := by
  rw [keyPowK, if_neg]
  rintro ⟨hc, i, hi, _, h2⟩
  apply h2
  rw [getD_eq_getElem' _ _ _ hi]
  rcases h hc _ (List.getElem_mem hi) with h | h
  · rw [h]; simpa using Nat.two_pow_pos W
  · rw [h]
    have h1 : (1 : BitVec W).toNat ≤ 1 := by
      show (BitVec.ofNat W 1).toNat ≤ 1
      rw [BitVec.toNat_ofNat]; exact Nat.mod_le _ _
    calc (1 : BitVec W).toNat * (-1 : BitVec W).toNat ≤ 1 * (-1 : BitVec W).toNat := Nat.mul_le_mul_right _ h1
      _ < 2 ^ W := by rw [Nat.one_mul]; exact (-1 : BitVec W).isLt

theorem keyPowKs_eq {checked : Bool} {k : Nat} : ∀ (bufs ss : List (List (BitVec W))), SafeKey checked ss → keyPowKs checked k bufs ss = powKs k bufs ss
  | [], [], _ => rfl
  | [], _ :: _, _ => rfl
  | _ :: _, [], _ => rfl
  | b :: bufs, s :: ss, h => by
    rw [keyPowKs, powKs, keyPowK_some b s (fun hc => h hc s (by simp)), keyPowKs_eq bufs ss (fun hc z hz => h hc z (by simp [hz]))]

theorem akLoop_spec {checked : Bool} {n d E : Nat} (hW : W ≤ 64) (r : Radix) (hl : 0 < r.log) (hlc : r.log * r.count ≤ W) (sk : List (List (BitVec W)))
    (hsk : KeyFor sk d (2 ^ n)) (hsafe : SafeKey checked sk) (masks : Nat → Nat → Nat → List (List (BitVec W)))
    (noise : Nat → Nat → Nat → Option (List Int)) (hma : ∀ h i j, KeyFor (masks h i j) d (2 ^ n)) (hno : ∀ h i j, NoiseOk (2 ^ n) E (noise h i j)) :
    ∀ (j : Nat) (scratch : List (List (BitVec W))) (bufs : List (List (List (Glwe (BitVec W))))), j + bufs.length = n → KeyFor scratch d (2 ^ n) →
      (∀ buf ∈ bufs, buf.length = d ∧ ∀ row ∈ buf, row.length = r.count ∧ ∀ b ∈ row, FreshBuf d (2 ^ n) b) →
      ∃ ak, akLoop checked (2 ^ n) r n sk masks (fun h i j => (noise h i j).map fun l => l.map (BitVec.ofInt W)) (j + 1) scratch bufs = some ak ∧
        ak.length = bufs.length ∧ ∀ t (h : t < ak.length), AkOk d n r E sk (j + t + 1) ak[t]
  | j, scratch, [], _, _, _ => ⟨[], rfl, rfl, by intro t h; simp at h⟩
  | j, scratch, buf :: bufs, h, hsc, hb => by
    have hj : j < n := by simp at h; omega
    have hodd := traceExp_odd hj
    obtain ⟨skk, p1, p2⟩ := powKs_spec hodd scratch sk (by rw [hsc.1, hsk.1]) hsc.2 hsk.2
    obtain ⟨b1, b2⟩ := hb buf (by simp)
    obtain ⟨ksk, q1, q2⟩ := glweKskRows_spec hW r hl hlc skk sk (keyPow_keyFor p2 hsk) hsk (masks (j + 1)) (noise (j + 1)) (hma _) (hno _) 0 buf (by omega) b2
    obtain ⟨ak, a1, a2, a3⟩ := akLoop_spec hW r hl hlc sk hsk hsafe masks noise hma hno (j + 1) skk bufs (by simp at h; omega) (keyPow_keyFor p2 hsk)
      fun z hz => hb z (by simp [hz])
    refine ⟨ksk :: ak, ?_, by simp [a2], fun t ht => ?_⟩
    · rw [akLoop, if_neg (by omega), traceExp_eq hj, keyPowKs_eq _ _ hsafe, p1]
      simp only [glweKskGen, q1, a1]
    · cases t with
      | zero =>
        refine ⟨skk, ?_, ?_⟩
        · rw [Nat.add_zero, traceExp_eq hj]; exact p2
        · rw [List.drop_zero] at q2; exact q2
      | succ t =>
        have := a3 t (by simpa using ht)
        rw [List.getElem_cons_succ]
        rwa [show j + 1 + t + 1 = j + (t + 1) + 1 by omega] at this

end Spf.Tfhe
