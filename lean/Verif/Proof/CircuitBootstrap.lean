import Verif.Model.CircuitBootstrap
import Verif.Proof.Pbs
import Verif.Proof.Trace
import Verif.Proof.SchemeSwitch
/-! Circuit bootstrapping by trace and scheme switching. -/
namespace Spf.Tfhe
open Spf.Spec Spf.Props

variable {W : Nat}

theorem modEq_of_eq {a b n : Int} (h : a = b) : a ≡ b [ZMOD n] := by rw [h]

theorem small_of_mem {N B : Nat} {e : List (BitVec W)} (hlen : e.length = N) (h : ∀ x ∈ e, ∃ z : Int, z.natAbs ≤ B ∧ x = BitVec.ofInt W z) :
    Small N B (cls N e) := by
  obtain ⟨l, h1, h2, h3⟩ := small_of_forall e h
  exact ⟨l, by rw [h1, hlen], h2, by rw [← h3]⟩

theorem encode_one {bits : Nat} (h0 : 0 < bits) (h : bits < W) : encode (1#W) bits = some (BitVec.ofNat W (2 ^ (W - bits))) := by
  rw [encode, if_pos h, wrapShl, Nat.mod_eq_of_lt (by omega)]
  congr 1
  apply BitVec.eq_of_toNat_eq
  rw [BitVec.toNat_shiftLeft, BitVec.toNat_ofNat, BitVec.toNat_ofNat, Nat.mod_eq_of_lt (Nat.one_lt_two_pow (by omega)), Nat.one_shiftLeft]

theorem cbsLevel_eq {log i : Nat} (h : log * (i + 1) + 1 < W) : cbsLevel W log i = some (-BitVec.ofNat W (2 ^ (W - (log * (i + 1) + 1)))) := by
  rw [cbsLevel, if_pos (by rw [Nat.mul_comm]; exact h), encode, if_pos h, wrapShl]
  generalize hb : log * (i + 1) + 1 = b at *
  have hb0 : 0 < b := by omega
  rw [Nat.mod_eq_of_lt (show W - b < W by omega)]
  congr 1
  have hs : ∀ (x : BitVec W) s, x <<< s = x * BitVec.ofNat W (2 ^ s) := by
    intro x s
    apply BitVec.eq_of_toNat_eq
    rw [BitVec.toNat_shiftLeft, BitVec.toNat_mul, BitVec.toNat_ofNat, Nat.shiftLeft_eq, Nat.mul_mod_mod]
  have h1 : (1#W : BitVec W) = 1 := rfl
  rw [hs, hs, h1, one_mul, sub_mul, one_mul, ← BitVec.ofNat_mul, ← Nat.pow_add, show b + (W - b) = W by omega]
  have : BitVec.ofNat W (2 ^ W) = 0 := by
    apply BitVec.eq_of_toNat_eq; simp
  rw [this, zero_sub]

theorem shrRound_spec {n : Nat} (hn : 0 < n) (hW : n < W) (x : BitVec W) :
    ∃ y : BitVec W, ∃ e : Int, shrRound n x = some y ∧ e.natAbs ≤ 2 ^ (n - 1) ∧ BitVec.ofNat W (2 ^ n) * y = x + BitVec.ofInt W e := by
  refine ⟨(x >>> n) + ((x >>> (n - 1)) &&& 1#W), ((x.toNat / 2 ^ (n - 1) % 2 : Nat) : Int) * 2 ^ n - ((x.toNat % 2 ^ n : Nat) : Int), by
    rw [shrRound, if_pos ⟨hn, hW⟩], ?_, ?_⟩
  · obtain ⟨m, rfl⟩ : ∃ m, n = m + 1 := ⟨n - 1, by omega⟩
    simp only [Nat.add_sub_cancel]
    have h1 : x.toNat % 2 ^ (m + 1) = x.toNat % 2 ^ m + 2 ^ m * (x.toNat / 2 ^ m % 2) := by
      rw [Nat.pow_succ, Nat.mod_mul]
    have h2 := Nat.mod_lt x.toNat (Nat.two_pow_pos m)
    have h3 : x.toNat / 2 ^ m % 2 = 0 ∨ x.toNat / 2 ^ m % 2 = 1 := by omega
    have h4 : (2 ^ (m + 1) : Int) = ((2 ^ m * 2 : Nat) : Int) := by push_cast; rw [pow_succ]
    rw [h4, h1]
    rcases h3 with h | h <;> rw [h] <;> omega
  · have h1 : (x >>> n) = BitVec.ofNat W (x.toNat / 2 ^ n) := by
      apply BitVec.eq_of_toNat_eq
      rw [BitVec.toNat_ushiftRight, BitVec.toNat_ofNat, Nat.shiftRight_eq_div_pow, Nat.mod_eq_of_lt]
      exact lt_of_le_of_lt (Nat.div_le_self _ _) x.isLt
    have h2 : ((x >>> (n - 1)) &&& 1#W) = BitVec.ofNat W (x.toNat / 2 ^ (n - 1) % 2) := by
      apply BitVec.eq_of_toNat_eq
      rw [BitVec.toNat_and, BitVec.toNat_ushiftRight, BitVec.toNat_ofNat, BitVec.toNat_ofNat, Nat.shiftRight_eq_div_pow,
        Nat.mod_eq_of_lt (Nat.one_lt_two_pow (by omega)), Nat.and_one_is_mod, Nat.mod_eq_of_lt (lt_of_lt_of_le (Nat.mod_lt _ (by decide)) ?_)]
      calc 2 = 2 ^ 1 := rfl
        _ ≤ 2 ^ W := Nat.pow_le_pow_right (by decide) (by omega)
    rw [h1, h2]
    have h3 : x = BitVec.ofInt W ((x.toNat : Nat) : Int) := by
      rw [BitVec.ofInt_natCast, BitVec.ofNat_toNat, BitVec.setWidth_eq]
    have h4 : ((x.toNat : Nat) : Int) = 2 ^ n * ((x.toNat / 2 ^ n : Nat) : Int) + ((x.toNat % 2 ^ n : Nat) : Int) := by
      have := Nat.div_add_mod x.toNat (2 ^ n)
      exact_mod_cast this.symm
    rw [show x + BitVec.ofInt W (((x.toNat / 2 ^ (n - 1) % 2 : Nat) : Int) * 2 ^ n - ((x.toNat % 2 ^ n : Nat) : Int)) =
      BitVec.ofInt W ((x.toNat : Nat) : Int) + BitVec.ofInt W (((x.toNat / 2 ^ (n - 1) % 2 : Nat) : Int) * 2 ^ n - ((x.toNat % 2 ^ n : Nat) : Int)) by rw [← h3]]
    rw [← BitVec.ofInt_add, ← BitVec.ofNat_add, ← BitVec.ofNat_mul, ← BitVec.ofInt_natCast]
    congr 1
    push_cast
    push_cast at h4
    linear_combination -h4

theorem shrPoly_spec {n N : Nat} (hn : 0 < n) (hW : n < W) : ∀ p : List (BitVec W), ∃ q e : List (BitVec W), p.mapM (shrRound n) = some q ∧ q.length = p.length ∧
    e.length = p.length ∧ (∀ x ∈ e, ∃ z : Int, z.natAbs ≤ 2 ^ (n - 1) ∧ x = BitVec.ofInt W z) ∧
    em N (BitVec.ofNat W (2 ^ n)) * cls N q = cls N p + cls N e
  | [] => ⟨[], [], rfl, rfl, rfl, by simp, by simp [cls_nil]⟩
  | x :: p => by
    obtain ⟨y, z, h1, h2, h3⟩ := shrRound_spec hn hW x
    obtain ⟨q, e, g1, g2, g3, g4, g5⟩ := shrPoly_spec (N := N) hn hW p
    refine ⟨y :: q, BitVec.ofInt W z :: e, by rw [List.mapM_cons, h1, g1]; rfl, by simp [g2], by simp [g3], ?_, ?_⟩
    · intro w hw
      rcases List.mem_cons.1 hw with rfl | hw
      · exact ⟨z, h2, rfl⟩
      · exact g4 w hw
    · rw [cls_cons, cls_cons, cls_cons]
      have h5 := congrArg (em N) h3
      simp only [em, map_mul, map_add] at h5 g5 ⊢
      linear_combination h5 + xcls N * g5

theorem shrPolys_spec {n N : Nat} (hn : 0 < n) (hW : n < W) : ∀ (as sk : List (List (BitVec W))), AllLen N as →
    ∃ qs es : List (List (BitVec W)), as.mapM (fun p => p.mapM (shrRound n)) = some qs ∧ qs.length = as.length ∧ es.length = as.length ∧ AllLen N qs ∧
      (∀ e ∈ es, Small N (2 ^ (n - 1)) (cls N e)) ∧ em N (BitVec.ofNat W (2 ^ n)) * dotC N qs sk = dotC N as sk + dotC N es sk
  | [], sk, _ => ⟨[], [], rfl, rfl, rfl, by intro p hp; simp at hp, by simp, by simp [dotC]⟩
  | a :: as, sk, h => by
    obtain ⟨q, e, g1, g2, g3, g4, g5⟩ := shrPoly_spec (N := N) hn hW a
    obtain ⟨qs, es, f1, f2, f3, f4, f5, f6⟩ := shrPolys_spec hn hW as sk.tail h.cons.2
    refine ⟨q :: qs, e :: es, by rw [List.mapM_cons, g1, f1]; rfl, by simp [f2], by simp [f3], ?_, ?_, ?_⟩
    · intro p hp
      rcases List.mem_cons.1 hp with rfl | hp
      · rw [g2]; exact h.cons.1
      · exact f4 p hp
    · intro w hw
      rcases List.mem_cons.1 hw with rfl | hw
      · exact small_of_mem (by rw [g3]; exact h.cons.1) g4
      · exact f5 w hw
    · cases sk with
      | nil => simp [dotC]
      | cons s sk =>
        simp only [List.tail_cons] at f6
        simp only [dotC]
        linear_combination cls N s * g5 + f6

/-- Rounding all coefficients down by `log2 N` bits divides the phase by `N`, up to half a unit per coefficient. -/
theorem glweShrRound_spec {n N d S : Nat} (hn : 0 < n) (hW : n < W) (x : Glwe (BitVec W)) (hx : x.valid d N) (sk : List (List (BitVec W)))
    (hsk : sk.length = d) (hS : ∀ s ∈ sk, Small N S (cls N s)) :
    ∃ y, glweShrRound n x = some y ∧ y.valid d N ∧
      Small N (2 ^ (n - 1) + d * (N * (2 ^ (n - 1) * S))) (em N (BitVec.ofNat W (2 ^ n)) * phG N sk y - phG N sk x) := by
  obtain ⟨q, e, g1, g2, g3, g4, g5⟩ := shrPoly_spec (N := N) hn hW x.b
  obtain ⟨qs, es, f1, f2, f3, f4, f5, f6⟩ := shrPolys_spec hn hW x.a sk hx.2.1
  refine ⟨⟨qs, q⟩, by rw [glweShrRound, f1, g1], ⟨by rw [f2, hx.1], f4, by rw [g2, hx.2.2]⟩, ?_⟩
  have h1 := small_of_mem (by rw [g3, hx.2.2]) g4
  have h2 := fe_small sk es (by rw [f3, hx.1, hsk]) hS f5
  rw [hsk] at h2
  have := h1.sub h2
  convert this using 1
  simp only [phG]
  linear_combination g5 - f6

/-! ### the table -/

theorem cbsLut_spec {k n v : Nat} {r : Radix} (hc : r.count < 16) (hv : ceilLog2 r.count = some v) (hlt : r.log * r.count + 1 < W) :
    ∃ L : List (BitVec W), cbsLut W k (2 ^ n) r = some ⟨List.replicate k (List.replicate (2 ^ n) 0), L⟩ ∧ L.length = 2 ^ n ∧
      ∀ u h, h < r.count → u + h < 2 ^ n → (u + h) % 2 ^ v = h → L[u + h]? = some (-BitVec.ofNat W (2 ^ (W - (r.log * (h + 1) + 1)))) := by
  have hlev : ∀ h < r.count, cbsLevel W r.log h = some (-BitVec.ofNat W (2 ^ (W - (r.log * (h + 1) + 1)))) := by
    intro h hh
    apply cbsLevel_eq
    have : r.log * (h + 1) ≤ r.log * r.count := Nat.mul_le_mul_left _ hh
    omega
  obtain ⟨L, l1, l2, l3⟩ := mapM_range (cbsEntry W r (2 ^ v)) (2 ^ n) (by
    intro i _
    rw [cbsEntry]
    split
    · rename_i hh; rw [hlev _ hh]; rfl
    · rfl)
  refine ⟨L, by rw [cbsLut, if_pos hc, hv]; simp only [l1], l2, fun u h hh hu hm => ?_⟩
  rw [l3 _ hu, cbsEntry, hm, if_pos hh, hlev h hh]

/-- The bootstrap of circuit bootstrapping: coefficient `h < count` of the result is `+` or `-` half of the gadget factor
number `h`, for bit 1 or 0. -/
theorem hiToLo_spec {n k E S F N' v e : Nat} {r rc : Radix} (hl : 0 < r.log) (hc : 0 < r.count) (hlt : r.log * r.count < W) (hk : 0 < k) (hn : 0 < N')
    (hcc : rc.count < 8) (hv : ceilLog2 rc.count = some v) (hrc : rc.log * rc.count + 1 < W) (hvn : v + 1 ≤ n) (hnW : n + 1 < W)
    (sk : List (List (BitVec W))) (hsk : KeyFor sk k (2 ^ n)) (hS : ∀ s ∈ sk, Small (2 ^ n) S (cls (2 ^ n) s)) (s : List Bool) (hs : s.length = N')
    (bsk : List (List (List (Glwe (BitVec W))))) (hbsk : List.Forall₂ (fun b g => GgswOk k (2 ^ n) r.log r.count E sk (if b then 1 else 0) g) s bsk)
    (fe : Nat → Glwe (BitVec W)) (hfe : ∀ i, FftErr k (2 ^ n) F (fe i))
    (ct : Lwe (BitVec W)) (hct : ct.a.length = N') (bit : Bool)
    (hin : Near e (ct.b - dotAcc ct.a (bitKey W s) 0) (BitVec.ofNat W ((if bit then 1 else 0) * 2 ^ (W - 1))))
    (hsmall : e + (s.count true + 1) * 2 ^ (W - (n + 1 - v) - 1) < 2 ^ (W - 2)) :
    ∃ out y, hiToLo N' k (2 ^ n) r rc fe ct bsk = some out ∧ out.valid k (2 ^ n) ∧ y.length = 2 ^ n ∧ cls (2 ^ n) y = phG (2 ^ n) sk out ∧
      ∀ h < rc.count, Near (N' * cmuxBound W k (2 ^ n) r S E F) (y.getD h 0)
        ((if bit then 1 else -1) * BitVec.ofNat W (2 ^ (W - (rc.log * (h + 1) + 1)))) := by
  have hN : isPow2 (2 ^ n) = true := isPow2_iff.mpr ⟨n, rfl⟩
  have hNp := Nat.two_pow_pos n
  have hval : r.valid W = true := by
    have := Nat.mul_comm r.log r.count
    simp only [Radix.valid, Bool.and_eq_true, decide_eq_true_eq]; omega
  obtain ⟨L, l1, l2, l3⟩ := cbsLut_spec (W := W) (k := k) (n := n) (show rc.count < 16 by omega) hv hrc
  have hlv : Glwe.valid ⟨List.replicate k (List.replicate (2 ^ n) (0 : BitVec W)), L⟩ k (2 ^ n) :=
    ⟨by simp, by intro p hp; rw [List.eq_of_mem_replicate hp]; simp, l2⟩
  have hlp : phG (2 ^ n) sk ⟨List.replicate k (List.replicate (2 ^ n) (0 : BitVec W)), L⟩ = cls (2 ^ n) L := by
    simp only [phG, dotC_zeros, sub_zero]
  have hvn' : v < n + 1 := by omega
  obtain ⟨zb, yb, eb, b1, b2, b3, b4⟩ := modSwitch_one (W := W) (chi := 0) (ct.b + BitVec.ofNat W (2 ^ (W - 2))) hnW (by omega) hvn'
  obtain ⟨A, yA, eA, a1, a2, a3, a4, a5⟩ := modSwitch_list (W := W) (chi := 0) hnW (by omega) hvn' ct.a s (by omega)
  have hms : lweModSwitch 0 v (Nat.log2 (2 ^ n) + 1) ⟨ct.a, ct.b + BitVec.ofNat W (2 ^ (W - 2))⟩ = some ⟨A, zb⟩ := by
    rw [Nat.log2_two_pow, lweModSwitch]; simp only [a1, b1]
  obtain ⟨acc, c1, c2, c3, c4⟩ := monomial_phase ⟨List.replicate k (List.replicate (2 ^ n) (0 : BitVec W)), L⟩ (-(zb.toNat : Int)) sk hlv hsk
  have hacc : xcls (2 ^ n) ^ zb.toNat * phG (2 ^ n) sk acc = cls (2 ^ n) L := by
    rw [← hlp]
    rcases Nat.eq_zero_or_pos zb.toNat with h0 | h0
    · rw [h0] at c3 ⊢
      have := c3 (by simp)
      simpa using this
    · have := c4 (by omega)
      rwa [neg_neg, Int.toNat_natCast] at this
  obtain ⟨out, o1, o2, o3⟩ := pbsLoop_spec hl hc hlt sk hsk hS fe hfe 0 A s bsk acc (by omega) hbsk c2
  obtain ⟨y, y1, y2, y3⟩ := decrypt_phase hN out sk o2 hsk.2
  -- arithmetic of the phase
  obtain ⟨er, e1, e2⟩ := near_modEq hin
  have hph : (ct.b.toNat : Int) - (selSum ct.a s : Int) ≡ ((if bit then 1 else 0 : Nat) : Int) * 2 ^ (W - 0 - 1) + er [ZMOD 2 ^ W] := by
    have g2 := toNat_modEq_sub ct.b (dotAcc ct.a (bitKey W s) 0)
    have g3 : ((dotAcc ct.a (bitKey W s) 0).toNat : Int) ≡ selSum ct.a s [ZMOD 2 ^ W] := by
      rw [dotAcc_bits, BitVec.toNat_ofNat]; push_cast; exact Int.mod_modEq _ _
    have g4 := (Int.ModEq.refl (n := 2 ^ W) (ct.b.toNat : Int)).sub g3
    have := (g4.symm.trans g2.symm).trans e2
    rw [Nat.sub_zero]
    push_cast at this ⊢
    exact this
  have hbt : ((ct.b + BitVec.ofNat W (2 ^ (W - 2))).toNat : Int) ≡ ct.b.toNat + 2 ^ (W - 2) [ZMOD 2 ^ W] := by
    rw [BitVec.toNat_add, BitVec.toNat_ofNat]
    push_cast
    exact (Int.mod_modEq _ _).trans ((Int.ModEq.refl _).add (Int.mod_modEq _ _))
  have ht2 : 2 ≤ n + 1 - v := by omega
  have h3' : (ct.b.toNat : Int) ≡ (yb - 2 ^ (n + 1 - v - 2)) * 2 ^ (W - (n + 1 - v)) + eb [ZMOD 2 ^ W] := by
    rw [pow_zero, mul_one] at b3
    have h := (hbt.symm.trans b3).sub_right (2 ^ (W - 2))
    rw [add_sub_cancel_right] at h
    have e : (2 ^ (W - 2) : Int) = 2 ^ (n + 1 - v - 2) * 2 ^ (W - (n + 1 - v)) := by rw [← pow_add]; congr 1; omega
    refine h.trans (modEq_of_eq ?_)
    rw [e]; ring
  have h1' : (zb.toNat : Int) - 2 ^ (n - 1) ≡ (yb - 2 ^ (n + 1 - v - 2)) * 2 ^ v [ZMOD 2 ^ (n + 1)] := by
    have e : (2 ^ (n - 1) : Int) = 2 ^ (n + 1 - v - 2) * 2 ^ v := by rw [← pow_add]; congr 1; omega
    have := b2.sub_right (2 ^ (n - 1))
    refine this.trans (modEq_of_eq ?_)
    rw [e]; ring
  have h4' : (selSum ct.a s : Int) ≡ yA * 2 ^ (W - (n + 1 - v)) + eA [ZMOD 2 ^ W] := by
    rw [pow_zero, mul_one] at a4; exact a4
  obtain ⟨δ, d1, d2⟩ := phase_arith (K := n + 1) (v := v) (bits := 0) (m := if bit then 1 else 0) (w := W) (n + 1 - v) rfl hvn' (by omega) hnW h1' a3 h3' h4' hph (by
    have := Nat.add_mul (s.count true) 1 (2 ^ (W - (n + 1 - v) - 1))
    rw [Nat.one_mul] at this
    rw [Nat.sub_zero]
    omega)
  rw [show n + 1 - 1 - 0 = n by omega] at d1 d2
  have hhalf : 2 ^ n / 2 = 2 ^ (n - 1) := by
    rw [show n = (n - 1) + 1 by omega, pow_succ, Nat.mul_div_cancel _ (by decide)]; simp
  refine ⟨out, y, ?_, o2, y2, y3, fun h hh => ?_⟩
  · rw [hiToLo, if_pos hcc, encode_one (by decide) (by omega)]
    simp only [lweRotate, if_pos hct, hv, l1, generalizedPbs, if_pos (show N' ≠ 0 ∧ isPow2 (2 ^ n) = true ∧ k ≠ 0 ∧ r.valid W = true ∧ bsk.length = N' ∧ ct.a.length = N' from
      ⟨by omega, hN, by omega, hval, by rw [← hbsk.length_eq]; exact hs, hct⟩), hms, c1]
    exact o1
  have hhv : h < 2 ^ v := ceilLog2_lt hv hh
  obtain ⟨u, u1, u2, u3⟩ := slot_pos (s := 2 ^ n) (v := v) (h := h) d2 (Dvd.intro _ rfl)
    (Or.inr (by rw [hhalf]; exact Nat.pow_dvd_pow 2 (by omega))) (Or.inr (Nat.pow_dvd_pow 2 (by omega))) hhv
  obtain ⟨ma, m1, m2, m3⟩ := decrypt_phase hN acc sk c2 hsk.2
  obtain ⟨Q, q1, q2, q3⟩ := mulByPosMonomial_spec ma (selSum A s) (by intro hh; rw [hh] at m2; simp at m2; omega)
  rw [m2, m3] at q3
  rw [m2] at q2
  have hexp : (xcls (2 ^ n) : Nega (BitVec W) (2 ^ n)) ^ zb.toNat = xcls (2 ^ n) ^ (selSum A s + ((if bit then 1 else 0) * 2 ^ n + u)) := by
    apply xcls_pow_congr
    have h2 := d1.add_right ((selSum A s : Int) + 2 ^ (n - 1))
    rw [pow_succ'] at h2
    rw [hhalf] at u1
    push_cast at u1 h2 ⊢
    rw [u1]
    refine Int.ModEq.trans (modEq_of_eq ?_) (h2.trans (modEq_of_eq ?_)) <;> ring
  have hsign : (xcls (2 ^ n) : Nega (BitVec W) (2 ^ n)) ^ ((if bit then 1 else 0) * 2 ^ n) = if bit then -1 else 1 := by
    cases bit
    · simp
    · simp only [if_true, one_mul]; exact xcls_pow _
  have hQ : xcls (2 ^ n) ^ u * cls (2 ^ n) (Q.map fun x => (if bit then -1 else 1) * x) = cls (2 ^ n) L := by
    have hm : cls (2 ^ n) (Q.map fun x => (if bit then -1 else 1) * x) = (if bit then -1 else 1) * cls (2 ^ n) Q := by
      cases bit
      · simp
      · simp only [if_true, neg_mul, one_mul]; exact cls_neg _ _
    rw [hm, q3, ← hacc, hexp, pow_add, pow_add, hsign]; ring
  have hget := rot_get u L (Q.map fun x => (if bit then -1 else 1) * x) l2 (by simpa using q2) hQ h u2
  rw [l3 u h hh u2 u3] at hget
  have hhn : h < 2 ^ n := by omega
  have hnear : NearPoly (A.length * cmuxBound W k (2 ^ n) r S E F) y Q := by
    apply nearPoly_of_small y2 q2
    rw [y3, q3]; exact o3
  rw [a2, hct] at hnear
  have := (List.forall₂_iff_get.1 hnear).2 h (by omega) (by omega)
  simp only [List.get_eq_getElem] at this
  rw [getD_eq_getElem' _ _ _ (by omega)]
  have hq : Q[h]'(by omega) = (if bit then 1 else -1) * BitVec.ofNat W (2 ^ (W - (rc.log * (h + 1) + 1))) := by
    rw [List.getElem?_map, List.getElem?_eq_getElem (by omega), Option.map_some, Option.some.injEq] at hget
    cases bit
    · simp only [Bool.false_eq_true, if_false, one_mul, neg_mul] at hget ⊢; exact hget
    · simp only [if_true, one_mul, neg_mul, neg_inj] at hget ⊢; exact hget
  rw [← hq]; exact this

/-! ### traces -/

theorem cls_bump {N : Nat} (c : BitVec W) : ∀ (l : List (BitVec W)) (i : Nat), i < l.length →
    cls N (l.modify i (· + c)) = cls N l + xcls N ^ i * em N c
  | [], _, h => by simp at h
  | x :: l, 0, _ => by rw [List.modify_zero_cons, cls_cons, cls_cons, em, map_add, pow_zero, one_mul]; ring
  | x :: l, i + 1, h => by
    rw [List.modify_succ_cons, cls_cons, cls_cons, cls_bump c l i (by simpa using h), pow_succ']; ring

theorem cls_const {N : Nat} (x : BitVec W) (m : Nat) : cls N (x :: List.replicate m 0) = em N x := by
  have h : ∀ m, cls N (List.replicate m (0 : BitVec W)) = 0 := by
    intro m
    induction m with
    | zero => rfl
    | succ m ih => rw [List.replicate_succ, cls_cons, ih, map_zero, mul_zero, add_zero]
  rw [cls_cons, h, mul_zero, add_zero]; rfl

theorem small_emN {N B : Nat} (hN : 0 < N) {e : Int} (h : e.natAbs ≤ B) : Small N B (em N (BitVec.ofInt W e)) := by
  refine ⟨e :: List.replicate (N - 1) 0, by simp; omega, ?_, ?_⟩
  · intro x hx
    rcases List.mem_cons.1 hx with rfl | hx
    · exact h
    · rw [List.eq_of_mem_replicate hx]; simp
  · have : (e :: List.replicate (N - 1) 0).map (BitVec.ofInt W) = BitVec.ofInt W e :: List.replicate (N - 1) 0 := by simp
    rw [this, cls_const]

/-- the error of one level: rounding by `N`, trace, and that of the bootstrap, `P` -/
def cbsBound (W d n : Nat) (r : Radix) (S E F P : Nat) : Nat :=
  (2 ^ n - 1) * glweKsBound W d (2 ^ n) r S S E F + (2 ^ (n - 1) + d * (2 ^ n * (2 ^ (n - 1) * S))) + P

theorem cbsTraceLoop_spec {n d E S F P : Nat} {r rc : Radix} (hl : 0 < r.log) (hc : 0 < r.count) (hlt : r.log * r.count < W) (hn : 0 < n) (hnW : n < W)
    (hlc : 0 < rc.log) (hrc : rc.log * rc.count + 1 < W) (hcn : rc.count ≤ 2 ^ n)
    (sk : List (List (BitVec W))) (hsk : KeyFor sk d (2 ^ n)) (hS : ∀ s ∈ sk, Small (2 ^ n) S (cls (2 ^ n) s)) (fe : Nat → Nat → Glwe (BitVec W))
    (hfe : ∀ h i, FftErr d (2 ^ n) F (fe h i)) (junk : Nat → Glwe (BitVec W)) (hj : ∀ i, (junk i).valid d (2 ^ n))
    (ak : List (List (List (Glwe (BitVec W))))) (hakl : ak.length = n) (hak : ∀ t (h : t < ak.length), AkOk d n r E sk (t + 1) ak[t]) (bit : Bool)
    (y : List (BitVec W)) (hy : ∀ h < rc.count, Near P (y.getD h 0) ((if bit then 1 else -1) * BitVec.ofNat W (2 ^ (W - (rc.log * (h + 1) + 1))))) :
    ∀ (c i : Nat) (rot : Glwe (BitVec W)) (m : List (BitVec W)), i + c = rc.count → rot.valid d (2 ^ n) → m.length = 2 ^ n → cls (2 ^ n) m = phG (2 ^ n) sk rot →
      (∀ t, i ≤ t → m.getD t 0 = y.getD t 0) →
      ∃ row, cbsTraceLoop d (2 ^ n) r rc fe junk ak c i rot = some row ∧ row.length = c ∧ (∀ z ∈ row, z.valid d (2 ^ n)) ∧
        ∀ t (h : t < row.length), Small (2 ^ n) (cbsBound W d n r S E F P)
          (phG (2 ^ n) sk row[t] - (if bit then 1 else 0) * em (2 ^ n) (BitVec.ofNat W (2 ^ (W - rc.log * (i + t + 1)))))
  | 0, i, rot, m, _, _, _, _, _ => ⟨[], rfl, rfl, by simp, by intro t h; simp at h⟩
  | c + 1, i, rot, m, hic, hrot, hm, hcm, hmy => by
    have hN : isPow2 (2 ^ n) = true := isPow2_iff.mpr ⟨n, rfl⟩
    have hpos := Nat.two_pow_pos n
    have hv : r.valid W = true := by
      have := Nat.mul_comm r.log r.count
      simp only [Radix.valid, Bool.and_eq_true, decide_eq_true_eq]; omega
    have hib : rc.log * (i + 1) ≤ rc.log * rc.count := Nat.mul_le_mul_left _ (by omega)
    have hi : i < 2 ^ n := by omega
    obtain ⟨one, hone⟩ : ∃ one, one = BitVec.ofNat W (2 ^ (W - (rc.log * (i + 1) + 1))) := ⟨_, rfl⟩
    have henc : encode (1#W) (rc.log * (i + 1) + 1) = some one := by rw [hone]; exact encode_one (by omega) (by omega)
    -- the shifted message
    obtain ⟨rot', hrot'⟩ : ∃ rot' : Glwe (BitVec W), rot' = ⟨rot.a, rot.b.modify i (· + one)⟩ := ⟨_, rfl⟩
    have hv' : rot'.valid d (2 ^ n) := by rw [hrot']; exact ⟨hrot.1, hrot.2.1, by simp [hrot.2.2]⟩
    have hcm' : cls (2 ^ n) (m.modify i (· + one)) = phG (2 ^ n) sk rot' := by
      rw [cls_bump _ _ _ (by omega), hcm, hrot']
      simp only [phG]
      rw [cls_bump _ _ _ (by rw [hrot.2.2]; exact hi)]; ring
    -- to the constant coefficient
    obtain ⟨perm, p1, p2, p3, p4⟩ := monomial_phase rot' (-(i : Int)) sk hv' hsk
    have hperm : xcls (2 ^ n) ^ i * phG (2 ^ n) sk perm = phG (2 ^ n) sk rot' := by
      rcases Nat.eq_zero_or_pos i with h0 | h0
      · subst h0
        have := p3 (by simp)
        simpa using this
      · have := p4 (by omega)
        rwa [neg_neg, Int.toNat_natCast] at this
    obtain ⟨q, q1, q2, q3⟩ := decrypt_phase hN perm sk p2 hsk.2
    have hq0 := rot_get i (m.modify i (· + one)) q (by simp [hm]) q2 (by rw [q3, hperm, hcm']) 0 (by omega)
    -- division by N
    obtain ⟨sh, s1, s2, s3⟩ := glweShrRound_spec hn hnW perm p2 sk hsk.1 hS
    obtain ⟨ms, t1, t2, t3⟩ := decrypt_phase hN sh sk s2 hsk.2
    -- the trace
    obtain ⟨out, o1, o2, o3⟩ := traceLoop_spec (F := F) hl hc hlt sk hsk hS (fe i) (hfe i) ms t2 0 ak (junk i) sh (by omega)
      (fun t h => by rw [Nat.zero_add]; exact hak t h) (hj i) s2 (by
      rw [keepMul_zero, t3, sub_self]
      exact small_zero.mono (Nat.zero_le _))
    rw [keepMul_last ms t2, cls_const] at o3
    have htr : trace d (2 ^ n) r (fe i) (junk i) sh ak = some out := by rw [trace, log2_pow, if_pos ⟨hv, hakl⟩]; exact o1
    -- the constant coefficient
    have hnear1 : NearPoly (2 ^ (n - 1) + d * (2 ^ n * (2 ^ (n - 1) * S))) (ms.map fun x => BitVec.ofNat W (2 ^ n) * x) q := by
      apply nearPoly_of_small (by simpa using t2) q2
      have : cls (2 ^ n) (ms.map fun x => BitVec.ofNat W (2 ^ n) * x) = em (2 ^ n) (BitVec.ofNat W (2 ^ n)) * cls (2 ^ n) ms := by
        generalize BitVec.ofNat W (2 ^ n) = k
        clear * -
        induction ms with
        | nil => simp [cls_nil]
        | cons x ms ih => rw [List.map_cons, cls_cons, cls_cons, ih, em, map_mul]; ring
      rw [this, q3, t3]; exact s3
    have hnear2 : Near (2 ^ (n - 1) + d * (2 ^ n * (2 ^ (n - 1) * S))) (BitVec.ofNat W (2 ^ n) * ms.getD 0 0) (m.getD i 0 + one) := by
      have := (List.forall₂_iff_get.1 hnear1).2 0 (by simp; omega) (by omega)
      simp only [List.get_eq_getElem, List.getElem_map] at this
      rw [getD_eq_getElem' _ _ _ (by omega), getD_eq_getElem' _ _ _ (by omega)]
      rw [List.getElem?_eq_getElem (by omega), Nat.add_zero, List.getElem?_modify, List.getElem?_eq_getElem (by omega)] at hq0
      simp only [if_true, Option.map_eq_map, Option.map_some, Option.some.injEq] at hq0
      rw [hq0] at this
      exact this
    have hval : Near P (m.getD i 0 + one) ((if bit then 1 else 0) * BitVec.ofNat W (2 ^ (W - rc.log * (i + 1)))) := by
      obtain ⟨e, e1, e2⟩ := hy i (by omega)
      refine ⟨e, e1, ?_⟩
      rw [hmy i (Nat.le_refl i), e2, ← hone]
      have h2 : BitVec.ofNat W (2 ^ (W - rc.log * (i + 1))) = one + one := by
        rw [hone, ← BitVec.ofNat_add, ← Nat.two_mul, ← Nat.pow_succ']
        congr 2; omega
      rw [h2]
      cases bit
      · simp only [Bool.false_eq_true, if_false]; ring
      · simp only [if_true]; ring
    obtain ⟨e, e1, e2⟩ := Tfhe.Near.trans hnear2 hval
    rw [e2] at o3
    -- the rest
    obtain ⟨row, r1, r2, r3, r4⟩ := cbsTraceLoop_spec hl hc hlt hn hnW hlc hrc hcn sk hsk hS fe hfe junk hj ak hakl hak bit y hy c (i + 1) rot'
      (m.modify i (· + one)) (by omega) hv' (by simp [hm]) hcm' (fun t ht => by
        rw [← hmy t (by omega)]
        simp only [List.getD_eq_getElem?_getD]
        rw [List.getElem?_modify]
        simp only [if_neg (show ¬ i = t by omega)]
        cases m[t]? <;> rfl)
    refine ⟨out :: row, ?_, by simp [r2], ?_, ?_⟩
    · rw [cbsTraceLoop, henc]
      simp only [← hrot', if_pos (show i < rot.b.length by rw [hrot.2.2]; exact hi), p1, log2_pow, s1, htr, r1]
    · intro z hz
      rcases List.mem_cons.1 hz with rfl | hz
      · exact o2
      · exact r3 z hz
    · intro t ht
      cases t with
      | zero =>
        have := o3.add (small_emN (W := W) hpos e1)
        rw [List.getElem_cons_zero, Nat.add_zero, cbsBound, Nat.add_assoc]
        convert this using 1
        simp only [em, map_add, map_mul]
        cases bit
        · simp only [Bool.false_eq_true, if_false, map_zero, zero_mul]; ring
        · simp only [if_true, map_one, one_mul]; ring
      | succ t =>
        have := r4 t (by simpa using ht)
        rw [List.getElem_cons_succ]
        rwa [show i + 1 + t + 1 = i + (t + 1) + 1 by omega] at this

/-- the GLev ciphertext of circuit bootstrapping -/
theorem modSwitchTraceRotate_spec {n d E S F P : Nat} {r rc : Radix} (hl : 0 < r.log) (hc : 0 < r.count) (hlt : r.log * r.count < W) (hn : 0 < n) (hnW : n < W)
    (hlc : 0 < rc.log) (hrc : rc.log * rc.count + 1 < W) (hcn : rc.count ≤ 2 ^ n)
    (sk : List (List (BitVec W))) (hsk : KeyFor sk d (2 ^ n)) (hS : ∀ s ∈ sk, Small (2 ^ n) S (cls (2 ^ n) s)) (fe : Nat → Nat → Glwe (BitVec W))
    (hfe : ∀ h i, FftErr d (2 ^ n) F (fe h i)) (junk : Nat → Glwe (BitVec W)) (hj : ∀ i, (junk i).valid d (2 ^ n))
    (ak : List (List (List (Glwe (BitVec W))))) (hakl : ak.length = n) (hak : ∀ t (h : t < ak.length), AkOk d n r E sk (t + 1) ak[t]) (bit : Bool)
    (lo : Glwe (BitVec W)) (hlo : lo.valid d (2 ^ n)) (y : List (BitVec W)) (hyl : y.length = 2 ^ n) (hyc : cls (2 ^ n) y = phG (2 ^ n) sk lo)
    (hy : ∀ h < rc.count, Near P (y.getD h 0) ((if bit then 1 else -1) * BitVec.ofNat W (2 ^ (W - (rc.log * (h + 1) + 1))))) :
    ∃ glev, modSwitchTraceRotate d (2 ^ n) r rc fe junk lo ak = some glev ∧
      GlevOk d (2 ^ n) rc.log rc.count (cbsBound W d n r S E F P) sk (if bit then 1 else 0) glev := by
  obtain ⟨row, r1, r2, r3, r4⟩ := cbsTraceLoop_spec hl hc hlt hn hnW hlc hrc hcn sk hsk hS fe hfe junk hj ak hakl hak bit y hy rc.count 0 lo y (by omega)
    hlo hyl hyc (fun _ _ => rfl)
  refine ⟨row, r1, r2, r3, fun t ht => ⟨_, r4 t ht, ?_⟩⟩
  rw [Nat.zero_add]; ring

end Spf.Tfhe
