import Verif.Model.GlevDec
import Verif.Proof.GlweKs
/-! Decryption of GLev ciphertexts: rounding to a gadget level. -/
namespace Spf.Tfhe
open Spf.Spec Spf.Props
variable {W N : Nat}



/-- a multiple `m` of the gadget factor of level `index`, disturbed by less than half of it, is rounded to `m` modulo the
base -/
theorem glevRound_spec {l i B : Nat} (hl0 : 0 < l) (hl : l * (i + 1) < W) (hl64 : l < 64) (hB : B < 2 ^ (W - l * (i + 1) - 1)) (m x : BitVec W)
    (h : Near B x (m * BitVec.ofNat W (2 ^ (W - l * (i + 1))))) :
    glevRoundCoeff l i x = some (m &&& BitVec.ofNat W (2 ^ l - 1)) := by
  obtain ⟨e, he, rfl⟩ := h
  obtain ⟨p, hp⟩ : ∃ p, p = l * (i + 1) := ⟨_, rfl⟩
  have hlp : l ≤ p := by rw [hp]; exact Nat.le_mul_of_pos_right l (by omega)
  rw [glevRoundCoeff, if_pos ⟨by omega, hl64⟩]
  rw [← hp] at hl hB ⊢
  generalize hx : m * BitVec.ofNat W (2 ^ (W - p)) + BitVec.ofInt W e = x
  have hpw : 2 ^ (W - p) = 2 * 2 ^ (W - p - 1) := by rw [← Nat.pow_succ']; congr 1; omega
  have h2W : 2 ^ W = 2 ^ p * (2 * 2 ^ (W - p - 1)) := by rw [← hpw, ← Nat.pow_add]; congr 1; omega
  have hb : ((x >>> (W - p - 1)) &&& 1#W).toNat = x.toNat / 2 ^ (W - p - 1) % 2 := by
    rw [and_one_toNat _ (by omega), shr_toNat]
  have hq : x.toNat / 2 ^ (W - p) < 2 ^ p := by
    rw [Nat.div_lt_iff_lt_mul (Nat.two_pow_pos _), ← Nat.pow_add, show p + (W - p) = W by omega]; exact x.isLt
  have hsum : (x >>> (W - p)).toNat + ((x >>> (W - p - 1)) &&& 1#W).toNat < 2 ^ W := by
    rw [hb, shr_toNat]
    have h3 : 2 ^ (p + 1) ≤ 2 ^ W := Nat.pow_le_pow_right (by decide) (by omega)
    have h4 : 1 ≤ 2 ^ p := Nat.one_le_two_pow
    rw [Nat.pow_succ] at h3
    omega
  rw [addC, if_pos hsum]
  simp only
  congr 1
  apply BitVec.eq_of_toNat_eq
  rw [and_mask_toNat _ (by omega), and_mask_toNat _ (by omega), BitVec.toNat_add, Nat.mod_eq_of_lt hsum, hb, shr_toNat, hpw]
  have hcore := round_core (2 ^ (W - p - 1)) (m.toNat % 2 ^ p) (2 ^ p) x.toNat e (Nat.two_pow_pos _) (Nat.mod_lt _ (Nat.two_pow_pos _))
    (by omega) (by omega) (by
      rw [← hx, toNat_add_ofInt]
      have h5 : (m * BitVec.ofNat W (2 ^ (W - p))).toNat = m.toNat % 2 ^ p * (2 * 2 ^ (W - p - 1)) := by
        rw [BitVec.toNat_mul, BitVec.toNat_ofNat, Nat.mul_mod_mod, ← hpw]
        conv_lhs => rw [show 2 ^ W = 2 ^ p * 2 ^ (W - p) by rw [← Nat.pow_add]; congr 1; omega]
        rw [Nat.mul_mod_mul_right]
      rw [h5, h2W]
      push_cast
      rfl)
  have h6 : ∀ a : Nat, a % 2 ^ l = a % 2 ^ p % 2 ^ l := fun a => (Nat.mod_mod_of_dvd a (Nat.pow_dvd_pow 2 hlp)).symm
  rw [h6, hcore, ← h6]

theorem glevRounds_spec {l i B : Nat} (hl0 : 0 < l) (hl : l * (i + 1) < W) (hl64 : l < 64) (hB : B < 2 ^ (W - l * (i + 1) - 1)) :
    ∀ (ms xs : List (BitVec W)), NearPoly B xs (ms.map fun m => m * BitVec.ofNat W (2 ^ (W - l * (i + 1)))) →
      xs.mapM (glevRoundCoeff l i) = some (ms.map (· &&& BitVec.ofNat W (2 ^ l - 1)))
  | [], xs, h => by
    rw [List.map_nil, NearPoly, List.forall₂_nil_right_iff] at h
    subst h; rfl
  | m :: ms, xs, h => by
    rw [List.map_cons, NearPoly] at h
    cases h with
    | cons h1 h2 =>
      rw [List.mapM_cons, glevRound_spec hl0 hl hl64 hB m _ h1, glevRounds_spec hl0 hl hl64 hB ms _ h2]
      rfl

/-- decrypting level `i` of a GLev ciphertext of `ms` -/
theorem glevDecryptAt_spec {n k E i : Nat} {r : Radix} (hl : 0 < r.log) (hc : 0 < r.count) (hlc : r.log * r.count ≤ W) (hi : i < r.count)
    (hli : r.log * (i + 1) < W) (hl64 : r.log < 64) (hE : E < 2 ^ (W - r.log * (i + 1) - 1)) (sk : List (List (BitVec W)))
    (hsk : KeyFor sk k (2 ^ n)) (ms : List (BitVec W)) (hm : ms.length = 2 ^ n) (row : List (Glwe (BitVec W)))
    (hrow : GlevOk k (2 ^ n) r.log r.count E sk (cls (2 ^ n) ms) row) :
    glevDecryptAt r row sk i = some (ms.map (· &&& BitVec.ofNat W (2 ^ r.log - 1))) := by
  have hN : isPow2 (2 ^ n) = true := isPow2_iff.mpr ⟨n, rfl⟩
  have hv : r.valid W = true := by
    have := Nat.mul_comm r.log r.count
    simp only [Radix.valid, Bool.and_eq_true, decide_eq_true_eq]; omega
  obtain ⟨h1, h2, h3⟩ := hrow
  have hi' : i < row.length := by omega
  obtain ⟨e, e1, e2⟩ := h3 i hi'
  obtain ⟨y, y1, y2, y3⟩ := decrypt_phase hN row[i] sk (h2 _ (List.getElem_mem hi')) hsk.2
  rw [glevDecryptAt, if_pos ⟨hv, h1⟩, List.getElem?_eq_getElem hi']
  simp only [y1]
  apply glevRounds_spec hl hli hl64 hE
  apply nearPoly_of_small y2 (by simpa using hm)
  rw [y3, e2, cls_smul]
  have : (AdjoinRoot.of _ (BitVec.ofNat W (2 ^ (W - r.log * (i + 1))))) = em (2 ^ n) (BitVec.ofNat W (2 ^ (W - r.log * (i + 1)))) := rfl
  rw [this, add_sub_cancel_left]
  exact e1

end Spf.Tfhe
