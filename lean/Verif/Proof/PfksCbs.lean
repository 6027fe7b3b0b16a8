import Verif.Proof.Pfks
/-! Circuit bootstrapping through private functional keyswitching, on phases. -/
namespace Spf.Tfhe
open Spf.Spec Spf.Props

variable {W N : Nat}

theorem zipAssign_const (g : BitVec W → BitVec W) : ∀ s : List (BitVec W), zipAssign (fun _ a => g a) (List.replicate s.length 0) s = s.map g
  | [] => rfl
  | a :: s => by rw [List.length_cons, List.replicate_succ, zipAssign, zipAssign_const g s, List.map_cons]

theorem length_one {x : List (BitVec W)} (h : x.length = 1) : ∃ v, x = [v] := List.length_eq_one_iff.1 h

theorem negMul_morphism {S : Nat} (s : List (BitVec W)) (hs : s.length = N) (hS : ∀ a ∈ s, a.toInt.natAbs ≤ S) : Morphism N 1 S (negMulMap s (List.replicate N 0)) := by
  have hval : ∀ v, negMulMap s (List.replicate N 0) [v] = some (s.map fun a => -v * a) := by
    intro v
    rw [negMulMap, ← hs, zipAssign_const]
  refine ⟨?_, ?_, ?_⟩
  · intro x hx
    obtain ⟨v, rfl⟩ := length_one hx
    exact ⟨_, hval v, by simpa using hs⟩
  · intro x x' y y' hx hx' h h'
    obtain ⟨v, rfl⟩ := length_one hx
    obtain ⟨v', rfl⟩ := length_one hx'
    rw [hval] at h h'
    cases h
    cases h'
    rw [List.zipWith_cons_cons, List.zipWith_nil_left, hval]
    congr 1
    rw [List.zipWith_map, List.zipWith_self]
    apply List.map_congr_left
    intro a _
    ring
  · intro B x x' y y' hx hn h h'
    obtain ⟨v, rfl⟩ := length_one hx
    obtain ⟨v', rfl⟩ := length_one (by rw [← hn.length_eq]; rfl : x'.length = 1)
    rw [hval] at h h'
    cases h
    cases h'
    cases hn with | cons hv _ =>
    obtain ⟨e, he, rfl⟩ := hv
    rw [NearPoly, List.forall₂_map_left_iff, List.forall₂_map_right_iff]
    refine List.forall₂_same.2 fun a ha => ⟨-e * a.toInt, ?_, ?_⟩
    · rw [Int.natAbs_mul, Int.natAbs_neg, Nat.mul_comm]
      exact Nat.mul_le_mul (hS a ha) he
    · rw [BitVec.ofInt_mul, BitVec.ofInt_neg, BitVec.ofInt_toInt]; ring

theorem const_morphism (hN : 0 < N) : Morphism (W := W) N 1 1 (constMap (List.replicate N 0)) := by
  obtain ⟨m, rfl⟩ : ∃ m, N = m + 1 := ⟨N - 1, by omega⟩
  have hval : ∀ v, constMap (List.replicate (m + 1) (0 : BitVec W)) [v] = some (v :: List.replicate m 0) := by
    intro v
    rw [List.replicate_succ, constMap, List.map_replicate]
  refine ⟨?_, ?_, ?_⟩
  · intro x hx
    obtain ⟨v, rfl⟩ := length_one hx
    exact ⟨_, hval v, by simp⟩
  · intro x x' y y' hx hx' h h'
    obtain ⟨v, rfl⟩ := length_one hx
    obtain ⟨v', rfl⟩ := length_one hx'
    rw [hval] at h h'
    cases h
    cases h'
    rw [List.zipWith_cons_cons, List.zipWith_nil_left, hval, List.zipWith_cons_cons, List.zipWith_replicate]
    simp
  · intro B x x' y y' hx hn h h'
    obtain ⟨v, rfl⟩ := length_one hx
    obtain ⟨v', rfl⟩ := length_one (by rw [← hn.length_eq]; rfl : x'.length = 1)
    rw [hval] at h h'
    cases h
    cases h'
    cases hn with | cons hv _ =>
    rw [Nat.one_mul]
    exact .cons hv (List.forall₂_same.2 fun a _ => Tfhe.Near.mono (Near.refl a) (Nat.zero_le _))

theorem negMul_img (s : List (BitVec W)) (hs : s.length = N) : imgAt N 1 (negMulMap s (List.replicate N 0)) 0 1 = -cls N s := by
  have : negMulMap s (List.replicate N 0) [(1 : BitVec W)] = some (s.map fun a => -1 * a) := by rw [negMulMap, ← hs, zipAssign_const]
  rw [imgAt, show (List.replicate 1 (0 : BitVec W)).set 0 1 = [1] from rfl, this, Option.getD_some, ← cls_neg]
  congr 1
  apply List.map_congr_left
  intro a _; ring

theorem const_img (hN : 0 < N) : imgAt (W := W) N 1 (constMap (List.replicate N 0)) 0 1 = 1 := by
  obtain ⟨m, rfl⟩ : ∃ m, N = m + 1 := ⟨N - 1, by omega⟩
  have : constMap (List.replicate (m + 1) (0 : BitVec W)) [1] = some (1 :: List.replicate m 0) := by
    rw [List.replicate_succ, constMap, List.map_replicate]
  rw [imgAt, show (List.replicate 1 (0 : BitVec W)).set 0 1 = [1] from rfl, this, Option.getD_some, cls_const]
  exact map_one _

/-- the noise of a private functional keyswitch of one ciphertext -/
def pfksBound (W m : Nat) (r : Radix) (R wt E : Nat) : Nat :=
  R * ((wt + 1) * 2 ^ (W - r.log * r.count - 1)) + (m + 1) * (r.count * (2 ^ (r.log - 1) * E))

theorem pfksRow_spec {n k m R E P : Nat} {r : Radix} (hl : 0 < r.log) (hc : 0 < r.count) (hlt : r.log * r.count < W) (hm : 0 < m) (hk : 0 < k) (hW : 1 < W)
    (f : List (BitVec W) → Option (List (BitVec W))) (hf : Morphism (2 ^ n) 1 R f) (s : List (BitVec W)) (hs : s.length = m) (sk : List (List (BitVec W)))
    (key : List (List (Glwe (BitVec W)))) (hkey : PfkOk k (2 ^ n) r.log r.count E sk (s ++ [-1]) [imgAt (2 ^ n) 1 f 0 1] key) :
    ∀ (ls : List (Lwe (BitVec W))) (ts : List (BitVec W)) (row : List (Glwe (BitVec W))), ls.length = row.length →
      List.Forall₂ (fun l t => l.a.length = m ∧ Near P (ph s l) t) ls ts → (∀ g ∈ row, g = glweZero k (2 ^ n)) →
      ∃ out, pfksRow m k (2 ^ n) r key ls row = some out ∧ out.length = row.length ∧ (∀ g ∈ out, g.valid k (2 ^ n)) ∧
        List.Forall₂ (fun g t => ∃ e, Small (2 ^ n) (pfksBound W m r R (weight s) E + R * P) e ∧ phG (2 ^ n) sk g = imgAt (2 ^ n) 1 f 0 1 * em (2 ^ n) t + e) out ts
  | [], _, [], _, .nil, _ => ⟨[], by simp [pfksRow], rfl, by simp, .nil⟩
  | [], _, _ :: _, h, _, _ => by simp at h
  | _ :: _, _, [], h, _, _ => by simp at h
  | l :: ls, t :: ts, g :: row, hlen, .cons hlt' hrest, hg => by
    obtain ⟨out, o1, o2, o3, o4⟩ := pfksRow_spec (P := P) hl hc hlt hm hk hW f hf s hs sk key hkey ls ts row (by simpa using hlen) hrest
      fun y hy => hg y (by simp [hy])
    have hg0 := hg g (by simp)
    subst hg0
    obtain ⟨c, q, c1, c2, c3, c4, c5⟩ := pfks_spec hl hc hlt hm hk (Nat.one_pos) hW f hf s hs sk key hkey [l] rfl (by simpa using hlt'.1) (glweZero k (2 ^ n))
      (glweZero_valid k (2 ^ n))
    rw [glweZero_phase, sub_zero, Nat.one_mul] at c5
    obtain ⟨q', d1, d2⟩ := hf.total [t] rfl
    have hlip := small_of_nearPoly c4 (hf.lipschitz P [ph s l] [t] q q' rfl (.cons hlt'.2 .nil) c3 d1)
    have hq' := morph_sum hf [t] 0 rfl
    rw [List.replicate_zero, List.nil_append, d1, Option.getD_some] at hq'
    simp only [List.length_singleton, List.range'_one, List.map_cons, List.map_nil, sumMul, add_zero] at hq'
    refine ⟨c :: out, by rw [pfksRow, c1]; simp only [o1], by simp [o2], ?_, .cons ⟨phG (2 ^ n) sk c - cls (2 ^ n) q + (cls (2 ^ n) q - cls (2 ^ n) q'), ?_, ?_⟩ o4⟩
    · intro y hy
      rcases List.mem_cons.1 hy with rfl | hy
      · exact c2
      · exact o3 y hy
    · rw [pfksBound]
      exact c5.add hlip
    · rw [← hq']; ring

theorem glevOk_of_row {k N l c E : Nat} {sk : List (List (BitVec W))} {u : Nega (BitVec W) N} {M : BitVec W} {out : List (Glwe (BitVec W))} (h1 : out.length = c)
    (h2 : ∀ g ∈ out, g.valid k N)
    (h3 : List.Forall₂ (fun g t => ∃ e, Small N E e ∧ phG N sk g = u * em N t + e) out ((List.range c).map fun t => M * BitVec.ofNat W (2 ^ (W - l * (t + 1))))) :
    GlevOk k N l c E sk (u * em N M) out := by
  refine ⟨h1, h2, fun t ht => ?_⟩
  obtain ⟨e, e1, e2⟩ := (List.forall₂_iff_get.1 h3).2 t ht (by simp; omega)
  refine ⟨e, e1, ?_⟩
  simp only [List.get_eq_getElem, List.getElem_map, List.getElem_range] at e2
  rw [e2, em, em, em, map_mul]; ring

theorem pfkGen_fresh {n k m p R E : Nat} {r : Radix} (hl : 0 < r.log) (hc : 0 < r.count) (hlt : r.log * r.count < W) (hm : 0 < m) (hk : 0 < k) (hp : 0 < p)
    (map : List (BitVec W) → List (BitVec W) → Option (List (BitVec W)))
    (hf : Morphism (2 ^ n) p R (map (List.replicate (2 ^ n) 0))) (s : List (BitVec W)) (hs : s.length = m) (sk : List (List (BitVec W))) (hsk : KeyFor sk k (2 ^ n))
    (masks : Nat → Nat → Nat → List (List (BitVec W))) (noise : Nat → Nat → Nat → Option (List Int)) (hma : ∀ h i j, KeyFor (masks h i j) k (2 ^ n))
    (hno : ∀ h i j, NoiseOk (2 ^ n) E (noise h i j)) :
    ∃ key, pfkGen m k (2 ^ n) p r map (List.replicate (p * (m + 1)) (List.replicate r.count (glweZero k (2 ^ n)))) s sk masks
        (fun h i j => (noise h i j).map fun l => l.map (BitVec.ofInt W)) = some key ∧
      PfkOk k (2 ^ n) r.log r.count E sk (s ++ [-1]) ((List.range' 0 p).map fun z => imgAt (2 ^ n) p (map (List.replicate (2 ^ n) 0)) z 1) key := by
  have hval : r.valid W = true := by
    have := Nat.mul_comm r.log r.count
    simp only [Radix.valid, Bool.and_eq_true, decide_eq_true_eq]; omega
  obtain ⟨key, k1, k2⟩ := pfkLoop_spec (r := r) map hf s hs sk hsk masks noise hma hno p 0 (List.replicate (p * (m + 1)) (List.replicate r.count (glweZero k (2 ^ n))))
    (by simp) (by
      intro row hrow
      rw [List.eq_of_mem_replicate hrow]
      refine ⟨by simp, fun b hb => ?_⟩
      rw [List.eq_of_mem_replicate hb]
      exact ⟨glweZero_valid k _, rfl⟩)
  refine ⟨key, ?_, k2⟩
  rw [pfkGen, if_pos]
  · exact k1
  · refine ⟨⟨by simp, ?_⟩, hval, hs, hsk, hk, isPow2_iff.mpr ⟨n, rfl⟩, hm, hp⟩
    intro row hrow
    rw [List.eq_of_mem_replicate hrow]
    refine ⟨by simp, fun b hb => ?_⟩
    rw [List.eq_of_mem_replicate hb]
    exact glweZero_valid k _

theorem cbskLoop_spec {n k m S E : Nat} {r : Radix} (hl : 0 < r.log) (hc : 0 < r.count) (hlt : r.log * r.count < W) (hm : 0 < m) (hk : 0 < k)
    (s : List (BitVec W)) (hs : s.length = m) (sk : List (List (BitVec W))) (hsk : KeyFor sk k (2 ^ n)) (hS : KeyBound S sk)
    (masks : Nat → Nat → Nat → List (List (BitVec W))) (noise : Nat → Nat → Nat → Option (List Int)) (hma : ∀ h i j, KeyFor (masks h i j) k (2 ^ n))
    (hno : ∀ h i j, NoiseOk (2 ^ n) E (noise h i j)) : ∀ (i : Nat) (ps : List (List (BitVec W))), (∀ p ∈ ps, p ∈ sk) →
    ∃ keys, cbskLoop m k (2 ^ n) r s sk masks (fun h i j => (noise h i j).map fun l => l.map (BitVec.ofInt W)) i ps
        (List.replicate (ps.length + 1) (List.replicate (m + 1) (List.replicate r.count (glweZero k (2 ^ n))))) = some keys ∧
      List.Forall₂ (fun u key => PfkOk k (2 ^ n) r.log r.count E sk (s ++ [-1]) [u] key) ((ps.map fun p => -cls (2 ^ n) p) ++ [1]) keys
  | i, [], _ => by
    obtain ⟨key, k1, k2⟩ := pfkGen_fresh (r := r) hl hc hlt hm hk Nat.one_pos constMap (const_morphism (Nat.two_pow_pos n)) s hs sk hsk (fun _ => masks i)
      (fun _ => noise i) (fun _ => hma i) (fun _ => hno i)
    rw [Nat.one_mul] at k1
    refine ⟨[key], ?_, .cons ?_ .nil⟩
    · rw [List.length_nil, Nat.zero_add, List.replicate_one, cbskLoop, k1]
    · simp only [List.range'_one, List.map_cons, List.map_nil] at k2
      rwa [const_img (Nat.two_pow_pos n)] at k2
  | i, p :: ps, hps => by
    have hp := hps p (by simp)
    obtain ⟨key, k1, k2⟩ := pfkGen_fresh (r := r) hl hc hlt hm hk Nat.one_pos (negMulMap p) (negMul_morphism p (hsk.2 p hp) (hS p hp)) s hs sk hsk (fun _ => masks i)
      (fun _ => noise i) (fun _ => hma i) (fun _ => hno i)
    rw [Nat.one_mul] at k1
    obtain ⟨keys, g1, g2⟩ := cbskLoop_spec hl hc hlt hm hk s hs sk hsk hS masks noise hma hno (i + 1) ps fun q hq => hps q (by simp [hq])
    refine ⟨key :: keys, ?_, .cons ?_ g2⟩
    · rw [List.length_cons, List.replicate_succ, cbskLoop, k1]
      simp only [g1]
    · simp only [List.range'_one, List.map_cons, List.map_nil] at k2
      rwa [negMul_img p (hsk.2 p hp)] at k2

theorem pfksRows_spec {n k m S E P c l : Nat} {r : Radix} (hl : 0 < r.log) (hc : 0 < r.count) (hlt : r.log * r.count < W) (hm : 0 < m) (hk : 0 < k) (hW : 1 < W)
    (hS1 : 1 ≤ S) (s : List (BitVec W)) (hs : s.length = m) (sk : List (List (BitVec W))) (M : BitVec W) (ls : List (Lwe (BitVec W)))
    (hls : ls.length = c)
    (hl2 : List.Forall₂ (fun l t => l.a.length = m ∧ Near P (ph s l) t) ls ((List.range c).map fun t => M * BitVec.ofNat W (2 ^ (W - l * (t + 1))))) :
    ∀ (ps : List (List (BitVec W))) (keys : List (List (List (Glwe (BitVec W))))), (∀ p ∈ ps, p.length = 2 ^ n ∧ ∀ a ∈ p, a.toInt.natAbs ≤ S) →
      List.Forall₂ (fun u key => PfkOk k (2 ^ n) r.log r.count E sk (s ++ [-1]) [u] key) ((ps.map fun p => -cls (2 ^ n) p) ++ [1]) keys →
      ∃ g, pfksRows m k (2 ^ n) r ls (List.replicate (ps.length + 1) (List.replicate c (glweZero k (2 ^ n)))) keys = some g ∧
        List.Forall₂ (GlevOk k (2 ^ n) l c (pfksBound W m r S (weight s) E + S * P) sk) (ggswMsgs (2 ^ n) (em (2 ^ n) M) ps) g
  | [], keys, _, hk2 => by
    cases hk2 with | cons h1 h2 =>
    cases h2
    have hpos := Nat.two_pow_pos n
    rename_i key
    obtain ⟨out, o1, o2, o3, o4⟩ := pfksRow_spec (P := P) hl hc hlt hm hk hW _ (const_morphism (W := W) hpos) s hs sk key (by rw [const_img hpos]; exact h1) ls _
      (List.replicate c (glweZero k (2 ^ n))) (by simp [hls]) hl2 (fun g hg => List.eq_of_mem_replicate hg)
    refine ⟨[out], ?_, .cons ?_ .nil⟩
    · simp only [List.length_nil, Nat.zero_add, List.replicate_one]
      rw [pfksRows, o1]
      simp [pfksRows]
    · have := glevOk_of_row (by rw [o2]; simp) o3 o4
      rw [const_img hpos] at this
      refine ⟨this.1, this.2.1, fun t ht => ?_⟩
      obtain ⟨e, e1, e2⟩ := this.2.2 t ht
      refine ⟨e, e1.mono ?_, by rw [e2, one_mul]⟩
      rw [pfksBound, pfksBound]
      have h3 := Nat.mul_le_mul_right ((weight s + 1) * 2 ^ (W - r.log * r.count - 1)) hS1
      have h4 := Nat.mul_le_mul_right P hS1
      omega
  | p :: ps, keys, hps, hk2 => by
    cases hk2 with | cons h1 h2 =>
    rename_i key keys
    obtain ⟨p1, p2⟩ := hps p (by simp)
    obtain ⟨g, g1, g2⟩ := pfksRows_spec (l := l) hl hc hlt hm hk hW hS1 s hs sk M ls hls hl2 ps keys (fun q hq => hps q (by simp [hq])) h2
    obtain ⟨out, o1, o2, o3, o4⟩ := pfksRow_spec (P := P) hl hc hlt hm hk hW _ (negMul_morphism p p1 p2) s hs sk key (by rw [negMul_img p p1]; exact h1) ls _
      (List.replicate c (glweZero k (2 ^ n))) (by simp [hls]) hl2 (fun g hg => List.eq_of_mem_replicate hg)
    refine ⟨out :: g, ?_, .cons ?_ g2⟩
    · simp only [List.length_cons]
      rw [List.replicate_succ, pfksRows, o1]
      simp only [g1]
    · have := glevOk_of_row (by rw [o2]; simp) o3 o4
      rw [negMul_img p p1, show -cls (2 ^ n) p * em (2 ^ n) M = -(em (2 ^ n) M * cls (2 ^ n) p) by ring] at this
      exact this

theorem extractRotate_spec {n k P : Nat} {rc : Radix} (hk : 0 < k) (hlc : 0 < rc.log) (hrc : rc.log * rc.count + 1 < W) (hcn : rc.count ≤ 2 ^ n)
    (sk : List (List (BitVec W))) (hsk : KeyFor sk k (2 ^ n)) (lo : Glwe (BitVec W)) (hlo : lo.valid k (2 ^ n)) (y : List (BitVec W)) (hyl : y.length = 2 ^ n)
    (hyc : cls (2 ^ n) y = phG (2 ^ n) sk lo) (bit : Bool)
    (hy : ∀ h < rc.count, Near P (y.getD h 0) ((if bit then 1 else -1) * BitVec.ofNat W (2 ^ (W - (rc.log * (h + 1) + 1))))) :
    ∀ (c i : Nat), i + c = rc.count → ∃ ls, extractRotate (k * 2 ^ n) (2 ^ n) rc lo c i = some ls ∧ ls.length = c ∧
      List.Forall₂ (fun l t => l.a.length = k * 2 ^ n ∧ Near P (ph (toLweKey sk) l) t) ls
        ((List.range' i c).map fun t => (if bit then 1 else 0) * BitVec.ofNat W (2 ^ (W - rc.log * (t + 1))))
  | 0, i, _ => ⟨[], rfl, rfl, .nil⟩
  | c + 1, i, h => by
    have hN : isPow2 (2 ^ n) = true := isPow2_iff.mpr ⟨n, rfl⟩
    obtain ⟨ls, l1, l2, l3⟩ := extractRotate_spec hk hlc hrc hcn sk hsk lo hlo y hyl hyc bit hy c (i + 1) (by omega)
    have hle : rc.log * (i + 1) ≤ rc.log * rc.count := Nat.mul_le_mul_left _ (by omega)
    have hpos : 0 < rc.log * (i + 1) := Nat.mul_pos hlc (by omega)
    obtain ⟨l, m, e1, e2, e3, e4, e5⟩ := C49_sample_extract n k i hk (show i < 2 ^ n by omega) lo sk hlo hsk
    obtain ⟨m', d1, d2, d3⟩ := decrypt_phase hN lo sk hlo hsk.2
    rw [e2] at d1
    cases d1
    have hmy : m = y := cls_inj _ _ _ e3 hyl (by rw [d3, hyc])
    subst hmy
    have hla : l.a.length = k * 2 ^ n := by
      by_contra hne
      rw [lweDecrypt, if_neg (by tauto)] at e4
      rw [← e4] at e5; simp at e5
    have hpos2 : 0 < k * 2 ^ n := Nat.mul_pos hk (Nat.two_pow_pos n)
    rw [lweDecrypt, if_pos ⟨by omega, hla⟩] at e4
    have hph : ph (toLweKey sk) l = m.getD i 0 := by rw [List.getD, ← e4]; rfl
    refine ⟨⟨l.a, l.b + BitVec.ofNat W (2 ^ (W - (rc.log * (i + 1) + 1)))⟩ :: ls, ?_, by simp [l2], ?_⟩
    · rw [extractRotate, encode_one (by omega) (by omega), e1]
      simp only [lweRotate, if_pos hla, l1]
    · rw [List.range'_succ, List.map_cons]
      refine .cons ⟨hla, ?_⟩ l3
      obtain ⟨e, he, heq⟩ := hy i (by omega)
      refine ⟨e, he, ?_⟩
      have hph2 : ph (toLweKey sk) (⟨l.a, l.b + BitVec.ofNat W (2 ^ (W - (rc.log * (i + 1) + 1)))⟩ : Lwe (BitVec W)) =
          m.getD i 0 + BitVec.ofNat W (2 ^ (W - (rc.log * (i + 1) + 1))) := by rw [← hph]; simp only [ph]; ring
      rw [hph2, heq]
      cases bit
      · simp only [Bool.false_eq_true, if_false]; ring
      · simp only [if_true]
        rw [show W - rc.log * (i + 1) = (W - (rc.log * (i + 1) + 1)) + 1 by omega, Nat.pow_succ, BitVec.ofNat_mul]
        have : BitVec.ofNat W 2 = 1 + 1 := by
          rw [show (2 : Nat) = 1 + 1 from rfl, BitVec.ofNat_add]; rfl
        rw [this]; ring

end Spf.Tfhe
