import Verif.Proof.Keyswitch
import Verif.Props.Glwe
/-! GGSW encryption, external product and CMUX, on phases `b - <a, s>` in the negacyclic ring. -/
namespace Spf.Tfhe
open Spf.Spec Spf.Props

variable {W N : Nat}

/-- `b - <a, s>` in the negacyclic ring -/
noncomputable def phG (N : Nat) (sk : List (List (BitVec W))) (ct : Glwe (BitVec W)) : Nega (BitVec W) N := cls N ct.b - dotC N ct.a sk

theorem lin_phase {k : Nat} {u : Nega (BitVec W) N} {f : List (BitVec W) → List (BitVec W) → Option (List (BitVec W))} (hf : Lin N u f)
    (a b : Glwe (BitVec W)) (sk : List (List (BitVec W))) (ha : a.valid k N) (hb : b.valid k N) :
    ∃ xs y, zipPolys f a.a b.a = some xs ∧ f a.b b.b = some y ∧ Glwe.valid ⟨xs, y⟩ k N ∧ phG N sk ⟨xs, y⟩ = phG N sk a + u * phG N sk b := by
  obtain ⟨xs, h1, h2, h3, h4⟩ := zipPolys_spec hf a.a b.a (by rw [ha.1, hb.1]) ha.2.1 hb.2.1
  obtain ⟨y, h5, h6, h7⟩ := hf a.b b.b ha.2.2 hb.2.2
  refine ⟨xs, y, h1, h5, ⟨by rw [h2, ha.1], h3, h6⟩, ?_⟩
  simp only [phG]
  rw [h4 sk, h7]; ring

theorem polyMad_phase {k : Nat} (hN : isPow2 N = true) (c a : Glwe (BitVec W)) (p : List (BitVec W)) (sk : List (List (BitVec W))) (hc : c.valid k N)
    (ha : a.valid k N) (hp : p.length = N) :
    ∃ d, glwePolyMad c a p = some d ∧ d.valid k N ∧ phG N sk d = phG N sk c + cls N p * phG N sk a := by
  obtain ⟨xs, y, h1, h2, h3, h4⟩ := lin_phase (lin_mad hN p hp) c a sk hc ha
  exact ⟨⟨xs, y⟩, by rw [glwePolyMad, h1, h2], h3, h4⟩

theorem add_phase {k : Nat} (a b : Glwe (BitVec W)) (sk : List (List (BitVec W))) (ha : a.valid k N) (hb : b.valid k N) :
    ∃ d, glweAdd a b = some d ∧ d.valid k N ∧ phG N sk d = phG N sk a + phG N sk b := by
  obtain ⟨xs, y, h1, h2, h3, h4⟩ := lin_phase (lin_add N) a b sk ha hb
  exact ⟨⟨xs, y⟩, by rw [glweAdd, h1, h2], h3, by rw [h4]; ring⟩

theorem sub_phase {k : Nat} (a b : Glwe (BitVec W)) (sk : List (List (BitVec W))) (ha : a.valid k N) (hb : b.valid k N) :
    ∃ d, glweSub a b = some d ∧ d.valid k N ∧ phG N sk d = phG N sk a - phG N sk b := by
  obtain ⟨xs, y, h1, h2, h3, h4⟩ := lin_phase (lin_sub N) a b sk ha hb
  exact ⟨⟨xs, y⟩, by rw [glweSub, h1, h2], h3, by rw [h4]; ring⟩

theorem decrypt_phase {k : Nat} (hN : isPow2 N = true) (ct : Glwe (BitVec W)) (sk : List (List (BitVec W))) (hct : ct.valid k N) (hsk : AllLen N sk) :
    ∃ m, glweDecrypt ct sk = some m ∧ m.length = N ∧ cls N m = phG N sk ct := glweDecrypt_spec hN ct sk hct hsk

theorem glevMad_spec {k : Nat} (hN : isPow2 N = true) (sk : List (List (BitVec W))) : ∀ (ds : List (List (BitVec W))) (cur : List (BitVec W))
    (rows : List (Glwe (BitVec W))) (c : Glwe (BitVec W)),
    ds.length = rows.length → c.valid k N → AllLen N ds → (∀ r ∈ rows, r.valid k N) →
    ∃ d, glevMad ds cur rows c = some d ∧ d.valid k N ∧
      phG N sk d = phG N sk c + sumMul (ds.map (cls N)) (rows.map (phG N sk))
  | [], cur, [], c, _, hc, _, _ => ⟨c, by simp [glevMad], hc, by simp [sumMul]⟩
  | [], _, _ :: _, _, h, _, _, _ => by simp at h
  | _ :: _, _, [], _, h, _, _, _ => by simp at h
  | d :: ds, cur, r :: rows, c, hl, hc, hd, hr => by
    obtain ⟨x, h1, h2, h3⟩ := polyMad_phase hN c r d sk hc (hr r (by simp)) hd.cons.1
    obtain ⟨y, h4, h5, h6⟩ := glevMad_spec hN sk ds d rows x (by simpa using hl) h2 hd.cons.2 fun z hz => hr z (by simp [hz])
    refine ⟨y, by rw [glevMad, h1]; exact h4, h5, ?_⟩
    rw [h6, h3, List.map_cons, List.map_cons, sumMul]; ring

/-- noise as bounded integers -/
def NoiseOk (N E : Nat) (e : Option (List Int)) : Prop := ∀ l, e = some l → l.length = N ∧ ∀ x ∈ l, x.natAbs ≤ E

theorem noise_small {E : Nat} (e : Option (List Int)) (h : NoiseOk N E e) :
    Small N E (cls N (((e.map fun l => l.map (BitVec.ofInt W)).getD (List.replicate N 0)))) := by
  cases e with
  | none => rw [Option.map_none, Option.getD_none, cls_replicate_zero]; exact small_zero.mono (Nat.zero_le _)
  | some l => obtain ⟨h1, h2⟩ := h l rfl; exact ⟨l, h1, h2, rfl⟩

/-- fresh zero buffers -/
def FreshBuf (k N : Nat) (buf : Glwe (BitVec W)) : Prop := buf.valid k N ∧ buf.b = List.replicate N 0

theorem glweEncrypt_phase {n k : Nat} (buf : Glwe (BitVec W)) (msg : List (BitVec W)) (sk masks : List (List (BitVec W))) (noise : Option (List (BitVec W)))
    (hbuf : FreshBuf k (2 ^ n) buf) (hm : msg.length = 2 ^ n) (hsk : KeyFor sk k (2 ^ n)) (hma : KeyFor masks k (2 ^ n))
    (hno : ∀ e, noise = some e → e.length = 2 ^ n) :
    ∃ ct, glweEncrypt (2 ^ n) buf msg sk masks noise = some ct ∧ ct.valid k (2 ^ n) ∧
      phG (2 ^ n) sk ct = cls (2 ^ n) msg + cls (2 ^ n) (noise.getD (List.replicate (2 ^ n) 0)) := by
  obtain ⟨ct, h1, _, h3, h4⟩ := C51_glwe_partial n k buf msg sk masks noise hbuf.1 hbuf.2 hm hsk hma hno
  have hlen : (noise.getD (List.replicate (2 ^ n) 0)).length = 2 ^ n := by
    cases noise with
    | none => simp
    | some e => exact hno e rfl
  refine ⟨ct, h1, h3, ?_⟩
  have := (glweDecrypt_eq (isPow2_iff.mpr ⟨n, rfl⟩) ct sk h3 hsk.2 _ (by rw [List.length_zipWith, hm, hlen, Nat.min_self])).1 h4
  rw [phG, ← this, cls_zipWith_add _ _ _ (by rw [hm, hlen])]

/-- a GLev row for the message class `M` -/
def GlevOk (k N l c E : Nat) (sk : List (List (BitVec W))) (M : Nega (BitVec W) N) (row : List (Glwe (BitVec W))) : Prop :=
  row.length = c ∧ (∀ r ∈ row, r.valid k N) ∧
    ∀ t (h : t < row.length), ∃ e, Small N E e ∧ phG N sk row[t] = M * em N (BitVec.ofNat W (2 ^ (W - l * (t + 1)))) + e

theorem glevRows_spec {n k l c E : Nat} (hW : W ≤ 64) (hl : 0 < l) (hlc : l * c ≤ W) (msg : List (BitVec W)) (hm : msg.length = 2 ^ n)
    (sk : List (List (BitVec W))) (hsk : KeyFor sk k (2 ^ n)) (masks : Nat → List (List (BitVec W))) (noise : Nat → Option (List Int))
    (hma : ∀ j, KeyFor (masks j) k (2 ^ n)) (hno : ∀ j, NoiseOk (2 ^ n) E (noise j)) :
    ∀ (j : Nat) (bufs : List (Glwe (BitVec W))), j + bufs.length ≤ c → (∀ b ∈ bufs, FreshBuf k (2 ^ n) b) →
    ∃ row, glevRows (2 ^ n) l msg sk masks (fun j => (noise j).map fun l => l.map (BitVec.ofInt W)) j bufs = some row ∧ row.length = bufs.length ∧
      (∀ r ∈ row, r.valid k (2 ^ n)) ∧ ∀ t (h : t < row.length), ∃ e, Small (2 ^ n) E e ∧
        phG (2 ^ n) sk row[t] = cls (2 ^ n) msg * em (2 ^ n) (BitVec.ofNat W (2 ^ (W - l * (j + t + 1)))) + e
  | j, [], _, _ => ⟨[], rfl, rfl, by simp, by intro t h; simp at h⟩
  | j, buf :: bufs, hj, hb => by
    simp only [List.length_cons] at hj
    obtain ⟨row, h1, h2, h3, h4⟩ := glevRows_spec hW hl hlc msg hm sk hsk masks noise hma hno (j + 1) bufs (by omega) fun b hb' => hb b (by simp [hb'])
    obtain ⟨ct, c1, c2, c3⟩ := glweEncrypt_phase buf (msg.map fun x => x * BitVec.ofNat W (2 ^ (W - l * (j + 1)))) sk (masks j)
      ((noise j).map fun l => l.map (BitVec.ofInt W)) (hb buf (by simp)) (by simpa using hm) hsk (hma j) (by
        intro e he
        cases hn : noise j with
        | none => rw [hn] at he; simp at he
        | some l =>
          rw [hn] at he
          simp only [Option.map_some, Option.some.injEq] at he
          rw [← he, List.length_map]; exact (hno j l hn).1)
    refine ⟨ct :: row, ?_, by simp [h2], ?_, ?_⟩
    · rw [glevRows, scaleMsg, gadgetFactor_some hW hl hlc (show j < c by omega)]
      simp only [c1, h1]
    · intro r hr
      simp only [List.mem_cons] at hr
      rcases hr with rfl | hr
      · exact c2
      · exact h3 r hr
    · intro t ht
      cases t with
      | zero =>
        refine ⟨_, noise_small (noise j) (hno j), ?_⟩
        simp only [List.getElem_cons_zero, Nat.add_zero]
        rw [c3, cls_smul]; rfl
      | succ t =>
        obtain ⟨e, h5, h6⟩ := h4 t (by simpa using ht)
        refine ⟨e, h5, ?_⟩
        rw [List.getElem_cons_succ, h6, show j + 1 + t = j + (t + 1) by omega]

theorem glevEncrypt_spec {n k E : Nat} (hW : W ≤ 64) (r : Radix) (hl : 0 < r.log) (hc : 0 < r.count) (hlc : r.log * r.count ≤ W) (msg : List (BitVec W))
    (hm : msg.length = 2 ^ n) (sk : List (List (BitVec W))) (hsk : KeyFor sk k (2 ^ n)) (masks : Nat → List (List (BitVec W)))
    (noise : Nat → Option (List Int)) (hma : ∀ j, KeyFor (masks j) k (2 ^ n)) (hno : ∀ j, NoiseOk (2 ^ n) E (noise j))
    (buf : List (Glwe (BitVec W))) (hbl : buf.length = r.count) (hb : ∀ b ∈ buf, FreshBuf k (2 ^ n) b) :
    ∃ row, glevEncrypt (2 ^ n) r buf msg sk masks (fun j => (noise j).map fun l => l.map (BitVec.ofInt W)) = some row ∧
      GlevOk k (2 ^ n) r.log r.count E sk (cls (2 ^ n) msg) row := by
  have hv : r.valid W = true := by
    have := Nat.mul_comm r.log r.count
    simp only [Radix.valid, Bool.and_eq_true, decide_eq_true_eq]; omega
  obtain ⟨row, h1, h2, h3, h4⟩ := glevRows_spec hW hl hlc msg hm sk hsk masks noise hma hno 0 buf (by omega) hb
  refine ⟨row, by rw [glevEncrypt, if_pos ⟨hv, hbl, hm⟩]; exact h1, by omega, h3, fun t ht => ?_⟩
  obtain ⟨e, h5, h6⟩ := h4 t ht
  exact ⟨e, h5, by rw [h6, Nat.zero_add]⟩

/-- the message classes of the rows of a GGSW ciphertext -/
noncomputable def ggswMsgs (N : Nat) (M : Nega (BitVec W) N) (sk : List (List (BitVec W))) : List (Nega (BitVec W) N) :=
  (sk.map fun s => -(M * cls N s)) ++ [M]

/-- a GGSW ciphertext of the message class `M` -/
def GgswOk (k N l c E : Nat) (sk : List (List (BitVec W))) (M : Nega (BitVec W) N) (g : List (List (Glwe (BitVec W)))) : Prop :=
  List.Forall₂ (GlevOk k N l c E sk) (ggswMsgs N M sk) g

theorem ggswRows_spec {n k E : Nat} (hW : W ≤ 64) (r : Radix) (hl : 0 < r.log) (hc : 0 < r.count) (hlc : r.log * r.count ≤ W) (msg : List (BitVec W))
    (hm : msg.length = 2 ^ n) (sk : List (List (BitVec W))) (hsk : KeyFor sk k (2 ^ n)) (masks : Nat → Nat → List (List (BitVec W)))
    (noise : Nat → Nat → Option (List Int)) (hma : ∀ i j, KeyFor (masks i j) k (2 ^ n)) (hno : ∀ i j, NoiseOk (2 ^ n) E (noise i j)) :
    ∀ (i : Nat) (bufs : List (List (Glwe (BitVec W)))), i + bufs.length = k + 1 → i ≤ k → (∀ row ∈ bufs, row.length = r.count ∧ ∀ b ∈ row, FreshBuf k (2 ^ n) b) →
    ∃ g, ggswRows (2 ^ n) r msg sk masks (fun i j => (noise i j).map fun l => l.map (BitVec.ofInt W)) i bufs = some g ∧
      List.Forall₂ (GlevOk k (2 ^ n) r.log r.count E sk) (ggswMsgs (2 ^ n) (cls (2 ^ n) msg) (sk.drop i)) g
  | i, [], h, hi, _ => by simp at h; omega
  | i, buf :: bufs, h, hi, hb => by
    obtain ⟨b1, b2⟩ := hb buf (by simp)
    have hN : isPow2 (2 ^ n) = true := isPow2_iff.mpr ⟨n, rfl⟩
    rcases Nat.lt_or_ge i k with hik | hik
    · have hget : sk[i]? = some (sk[i]'(by rw [hsk.1]; exact hik)) := List.getElem?_eq_getElem (by rw [hsk.1]; exact hik)
      obtain ⟨q, q1, q2, q3⟩ := polyMad_spec (List.replicate (2 ^ n) 0) msg (sk[i]'(by rw [hsk.1]; exact hik)) hN (by simp) hm
        (hsk.2 _ (List.getElem_mem _))
      rw [cls_replicate_zero, zero_add] at q3
      obtain ⟨row, r1, r2⟩ := glevEncrypt_spec hW r hl hc hlc (polyNegate q) (by simp [polyNegate, q2]) sk hsk (masks i) (noise i) (hma i) (hno i) buf b1 b2
      obtain ⟨g, g1, g2⟩ := ggswRows_spec hW r hl hc hlc msg hm sk hsk masks noise hma hno (i + 1) bufs (by simp at h; omega) (by omega)
        fun z hz => hb z (by simp [hz])
      refine ⟨row :: g, ?_, ?_⟩
      · rw [ggswRows, hget, ggswRowMsg, q1]
        simp only [r1, g1]
      · rw [ggswMsgs, List.drop_eq_getElem_cons (by rw [hsk.1]; exact hik), List.map_cons, List.cons_append]
        refine .cons ?_ g2
        rw [polyNegate, cls_neg, q3] at r2
        exact r2
    · have hik' : i = k := by omega
      subst hik'
      have hnil : bufs = [] := by
        simp only [List.length_cons] at h
        exact List.length_eq_zero_iff.1 (by omega)
      subst hnil
      have hget : sk[i]? = none := by rw [List.getElem?_eq_none_iff, hsk.1]
      obtain ⟨row, r1, r2⟩ := glevEncrypt_spec hW r hl hc hlc msg hm sk hsk (masks i) (noise i) (hma i) (hno i) buf b1 b2
      refine ⟨[row], ?_, ?_⟩
      · rw [ggswRows, hget, ggswRowMsg]
        simp only [r1, ggswRows]
      · rw [ggswMsgs, List.drop_eq_nil_of_le (by rw [hsk.1])]
        exact .cons r2 .nil

theorem ggswMadLoop_spec {k E : Nat} {r : Radix} (hN : isPow2 N = true) (hl : 0 < r.log) (hc : 0 < r.count) (hlt : r.log * r.count < W)
    (sk : List (List (BitVec W))) : ∀ (ps : List (List (BitVec W))) (Ms : List (Nega (BitVec W) N)) (g : List (List (Glwe (BitVec W)))) (c : Glwe (BitVec W)),
    ps.length = Ms.length → AllLen N ps → List.Forall₂ (GlevOk k N r.log r.count E sk) Ms g → c.valid k N →
    ∃ out errs ν, ggswMadLoop N r ps g c = some out ∧ out.valid k N ∧ errs.length = ps.length ∧
      (∀ e ∈ errs, Small N (2 ^ (W - r.log * r.count - 1)) e) ∧ Small N (ps.length * (r.count * (N * (2 ^ (r.log - 1) * E)))) ν ∧
      phG N sk out = phG N sk c + sumMul Ms (ps.map (cls N)) - sumMul Ms errs + ν
  | [], [], _, c, _, _, .nil, hcv => ⟨c, [], 0, rfl, hcv, rfl, by simp, by simpa using small_zero, by simp [sumMul]⟩
  | [], _ :: _, _, _, h, _, _, _ => by simp at h
  | _ :: _, [], _, _, h, _, _, _ => by simp at h
  | p :: ps, M :: Ms, row :: g, c, hlen, hps, .cons hrow hrest, hcv => by
    obtain ⟨p1, p2, p3⟩ := hrow
    obtain ⟨ds, d1, d2, d3, d4, err, d5, d6⟩ := polyDigits_spec (N := N) hl hc hlt p hps.cons.1
    obtain ⟨x, x1, x2, x3⟩ := glevMad_spec hN sk ds (List.replicate N 0) row.reverse c (by simp [d2, p1]) hcv d3
      (fun z hz => p2 z (by simpa using hz))
    obtain ⟨out, errs, ν, o1, o2, o3, o4, o5, o6⟩ := ggswMadLoop_spec hN hl hc hlt sk ps Ms g x (by simpa using hlen) hps.cons.2 hrest x2
    have hR : RowsG N E M (em N (BitVec.ofNat W (2 ^ r.log))) (em N (BitVec.ofNat W (2 ^ (W - r.log * r.count))))
        ((row.map (phG N sk)).reverse) := by
      apply RowsG_reverse (by omega) _ (by simpa using p1)
      intro t ht
      obtain ⟨e, he, hp⟩ := p3 t (by simpa using ht)
      exact ⟨e, he, by rw [List.getElem_map, hp]⟩
    obtain ⟨ν', n1, n2⟩ := sumMul_rows _ (ds.map (cls N)) _ hR (by simp [d2, p1]) d4
    rw [← List.map_reverse] at n2
    rw [show gsum (em N (BitVec.ofNat W (2 ^ r.log))) (em N (BitVec.ofNat W (2 ^ (W - r.log * r.count)))) (ds.map (cls N)) = cls N p - err from d6] at n2
    refine ⟨out, err :: errs, ν' + ν, by rw [ggswMadLoop, d1]; simp only [x1]; exact o1, o2, by simp [o3], ?_, ?_, ?_⟩
    · intro e he
      simp only [List.mem_cons] at he
      rcases he with rfl | he
      · exact d5
      · exact o4 e he
    · rw [List.length_cons, Nat.add_mul, Nat.one_mul, Nat.add_comm]
      rw [List.length_map, d2] at n1
      exact n1.add o5
    · rw [o6, x3, n2, List.map_cons, sumMul, sumMul]; ring

theorem sumMul_append {A : Type} [CommRing A] : ∀ (u v u' v' : List A), u.length = v.length → sumMul (u ++ u') (v ++ v') = sumMul u v + sumMul u' v'
  | [], [], u', v', _ => by simp [sumMul]
  | [], _ :: _, _, _, h => by simp at h
  | _ :: _, [], _, _, h => by simp at h
  | a :: u, b :: v, u', v', h => by
    rw [List.cons_append, List.cons_append, sumMul, sumMul, sumMul_append u v u' v' (by simpa using h)]; ring

theorem sumMul_keys (M : Nega (BitVec W) N) : ∀ (sk as : List (List (BitVec W))), as.length = sk.length →
    sumMul (sk.map fun s => -(M * cls N s)) (as.map (cls N)) = -(M * dotC N as sk)
  | [], [], _ => by simp [sumMul, dotC]
  | [], _ :: _, h => by simp at h
  | _ :: _, [], h => by simp at h
  | s :: sk, a :: as, h => by
    rw [List.map_cons, List.map_cons, sumMul, dotC, sumMul_keys M sk as (by simpa using h)]; ring

theorem sumMul_err {S B : Nat} (M : Nega (BitVec W) N) : ∀ (sk : List (List (BitVec W))) (es : List (Nega (BitVec W) N)), es.length = sk.length →
    (∀ s ∈ sk, Small N S (cls N s)) → (∀ e ∈ es, Small N B e) →
    ∃ ρ, Small N (sk.length * (N * (S * B))) ρ ∧ sumMul (sk.map fun s => -(M * cls N s)) es = -(M * ρ)
  | [], [], _, _, _ => ⟨0, by simpa using small_zero, by simp [sumMul]⟩
  | [], _ :: _, h, _, _ => by simp at h
  | _ :: _, [], h, _, _ => by simp at h
  | s :: sk, e :: es, h, hs, he => by
    obtain ⟨ρ, h1, h2⟩ := sumMul_err M sk es (by simpa using h) (fun z hz => hs z (by simp [hz])) (fun z hz => he z (by simp [hz]))
    refine ⟨cls N s * e + ρ, ?_, by rw [List.map_cons, sumMul, h2]; ring⟩
    rw [List.length_cons, Nat.add_mul, Nat.one_mul, Nat.add_comm]
    exact ((hs s (by simp)).mul (he e (by simp))).add h1

theorem glweZero_valid (k N : Nat) : (glweZero (W := W) k N).valid k N :=
  ⟨by simp [glweZero], by intro p hp; simp only [glweZero] at hp; rw [List.eq_of_mem_replicate hp]; simp, by simp [glweZero]⟩

theorem dotC_zeros : ∀ (k : Nat) (sk : List (List (BitVec W))), dotC N (List.replicate k (List.replicate N 0)) sk = 0
  | 0, sk => by simp [dotC]
  | k + 1, [] => by simp [dotC, List.replicate_succ]
  | k + 1, s :: sk => by rw [List.replicate_succ, dotC, dotC_zeros k sk, cls_replicate_zero]; ring

theorem glweZero_phase (k : Nat) (sk : List (List (BitVec W))) : phG N sk (glweZero k N) = 0 := by
  simp only [phG, glweZero, cls_replicate_zero, dotC_zeros, sub_zero]

/-- External product on phases. -/
theorem externalProduct_spec {k E S : Nat} {r : Radix} (hN : isPow2 N = true) (hl : 0 < r.log) (hc : 0 < r.count) (hlt : r.log * r.count < W)
    (sk : List (List (BitVec W))) (hskl : sk.length = k) (hS : ∀ s ∈ sk, Small N S (cls N s)) (M : Nega (BitVec W) N) (g : List (List (Glwe (BitVec W))))
    (hg : GgswOk k N r.log r.count E sk M g) (x : Glwe (BitVec W)) (hx : x.valid k N) :
    ∃ out ρ ν, externalProduct k N r g x = some out ∧ out.valid k N ∧
      Small N (2 ^ (W - r.log * r.count - 1) + k * (N * (S * 2 ^ (W - r.log * r.count - 1)))) ρ ∧
      Small N ((k + 1) * (r.count * (N * (2 ^ (r.log - 1) * E)))) ν ∧
      phG N sk out = M * phG N sk x + M * ρ + ν := by
  have hps : AllLen N (x.a ++ [x.b]) := by
    intro p hp
    simp only [List.mem_append, List.mem_singleton] at hp
    rcases hp with hp | rfl
    · exact hx.2.1 p hp
    · exact hx.2.2
  obtain ⟨out, errs, ν, o1, o2, o3, o4, o5, o6⟩ := ggswMadLoop_spec hN hl hc hlt sk (x.a ++ [x.b]) (ggswMsgs N M sk) g (glweZero k N)
    (by simp [ggswMsgs, hx.1, hskl]) hps hg (glweZero_valid k N)
  have hlen : errs.length = k + 1 := by rw [o3]; simp [hx.1]
  rcases List.eq_nil_or_concat errs with rfl | ⟨es, eb, rfl⟩
  · simp at hlen
  simp only [List.concat_eq_append] at *
  have hesl : es.length = sk.length := by simp at hlen; omega
  obtain ⟨ρ, h1, h2⟩ := sumMul_err M sk es hesl hS fun e he => o4 e (by simp [he])
  refine ⟨out, ρ - eb, ν, by rw [externalProduct, glweGgswMad]; exact o1, o2, ?_, ?_, ?_⟩
  · rw [hskl] at h1
    exact (h1.sub (o4 eb (by simp))).mono (by omega)
  · rw [List.length_append, List.length_singleton, hx.1] at o5
    exact o5
  · rw [o6, glweZero_phase, ggswMsgs, List.map_append, sumMul_append _ _ _ _ (by simp [hx.1, hskl]), sumMul_append _ _ _ _ (by simp [hesl]), h2,
      sumMul_keys M sk x.a (by rw [hx.1, hskl])]
    simp only [List.map_cons, List.map_nil, sumMul, phG]
    ring

theorem fe_small {F S : Nat} : ∀ (sk as : List (List (BitVec W))), as.length = sk.length → (∀ s ∈ sk, Small N S (cls N s)) → (∀ a ∈ as, Small N F (cls N a)) →
    Small N (sk.length * (N * (F * S))) (dotC N as sk)
  | [], [], _, _, _ => by simpa [dotC] using small_zero
  | [], _ :: _, h, _, _ => by simp at h
  | _ :: _, [], h, _, _ => by simp at h
  | s :: sk, a :: as, h, hs, ha => by
    rw [dotC, List.length_cons, Nat.add_mul, Nat.one_mul, Nat.add_comm]
    exact ((ha a (by simp)).mul (hs s (by simp))).add (fe_small sk as (by simpa using h) (fun z hz => hs z (by simp [hz])) fun z hz => ha z (by simp [hz]))

/-- the error of one CMUX -/
def cmuxBound (W k N : Nat) (r : Radix) (S E F : Nat) : Nat :=
  2 ^ (W - r.log * r.count - 1) + k * (N * (S * 2 ^ (W - r.log * r.count - 1))) + (k + 1) * (r.count * (N * (2 ^ (r.log - 1) * E))) + (F + k * (N * (F * S)))

/-- CMUX on phases, for a selector that is a bit. -/
theorem cmux_spec {k E S F : Nat} {r : Radix} (hN : isPow2 N = true) (hl : 0 < r.log) (hc : 0 < r.count) (hlt : r.log * r.count < W)
    (sk : List (List (BitVec W))) (hskl : sk.length = k) (hS : ∀ s ∈ sk, Small N S (cls N s)) (bit : Bool) (g : List (List (Glwe (BitVec W))))
    (hg : GgswOk k N r.log r.count E sk (if bit then 1 else 0) g) (fe d0 d1 : Glwe (BitVec W)) (hfe : fe.valid k N) (hd0 : d0.valid k N) (hd1 : d1.valid k N)
    (hFa : ∀ a ∈ fe.a, Small N F (cls N a)) (hFb : Small N F (cls N fe.b)) :
    ∃ out, cmux k N r fe d0 d1 g = some out ∧ out.valid k N ∧
      Small N (cmuxBound W k N r S E F) (phG N sk out - phG N sk (if bit then d1 else d0)) := by
  obtain ⟨diff, e1, e2, e3⟩ := sub_phase d1 d0 sk hd1 hd0
  obtain ⟨ex, ρ, ν, x1, x2, x3, x4, x5⟩ := externalProduct_spec hN hl hc hlt sk hskl hS _ g hg diff e2
  obtain ⟨pr, p1, p2, p3⟩ := add_phase ex fe sk x2 hfe
  obtain ⟨out, o1, o2, o3⟩ := add_phase pr d0 sk p2 hd0
  refine ⟨out, by rw [cmux, e1]; simp only [x1, p1]; exact o1, o2, ?_⟩
  have hf : Small N (F + k * (N * (F * S))) (phG N sk fe) := by
    have := fe_small (F := F) (S := S) sk fe.a (by rw [hfe.1, hskl]) hS hFa
    rw [hskl] at this
    exact hFb.sub this
  have key : phG N sk out - phG N sk (if bit then d1 else d0) = (if bit then ρ else 0) + ν + phG N sk fe := by
    rw [o3, p3, x5, e3]
    cases bit
    · simp
    · simp; ring
  rw [key, cmuxBound]
  have hρ : Small N (2 ^ (W - r.log * r.count - 1) + k * (N * (S * 2 ^ (W - r.log * r.count - 1)))) (if bit then ρ else 0) := by
    cases bit
    · exact small_zero.mono (Nat.zero_le _)
    · exact x3
  exact (hρ.add x4).add hf

end Spf.Tfhe
