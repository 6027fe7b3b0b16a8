import Verif.Proof.CircuitBootstrap
import Verif.Props.Torus
import Verif.Model.Pfks
import Verif.Spec.Morphism
/-! Private functional keyswitching on phases. -/
namespace Spf.Tfhe
open Spf.Spec Spf.Props

variable {W N : Nat}

theorem scalarMadG_phase {k : Nat} (c a : Glwe (BitVec W)) (s : BitVec W) (sk : List (List (BitVec W))) (hc : c.valid k N) (ha : a.valid k N) :
    ∃ d, glweScalarMad c a s = some d ∧ d.valid k N ∧ phG N sk d = phG N sk c + em N s * phG N sk a := by
  obtain ⟨xs, y, h1, h2, h3, h4⟩ := lin_phase (lin_scalar N s) c a sk hc ha
  cases h2
  exact ⟨_, by rw [glweScalarMad, h1], h3, h4⟩

theorem dotC_map_neg : ∀ (as sk : List (List (BitVec W))), dotC N (as.map polyNegate) sk = -dotC N as sk
  | [], _ => by simp [dotC]
  | _ :: _, [] => by simp [dotC]
  | a :: as, s :: sk => by rw [List.map_cons, dotC, dotC, dotC_map_neg as sk, polyNegate, cls_neg]; ring

theorem neg_phase {k : Nat} (c : Glwe (BitVec W)) (sk : List (List (BitVec W))) (hc : c.valid k N) :
    (glweNeg c).valid k N ∧ phG N sk (glweNeg c) = -phG N sk c := by
  refine ⟨⟨by simp [glweNeg, hc.1], ?_, by simp [glweNeg, polyNegate, hc.2.2]⟩, ?_⟩
  · intro p hp
    simp only [glweNeg, List.mem_map] at hp
    obtain ⟨q, hq, rfl⟩ := hp
    rw [polyNegate, List.length_map]; exact hc.2.1 q hq
  · simp only [phG, glweNeg]
    rw [dotC_map_neg, polyNegate, cls_neg]; ring

theorem scalarGlevMad_spec {k : Nat} (sk : List (List (BitVec W))) : ∀ (ds : List (BitVec W)) (rows : List (Glwe (BitVec W))) (c : Glwe (BitVec W)),
    ds.length = rows.length → c.valid k N → (∀ r ∈ rows, r.valid k N) →
    ∃ d, scalarGlevMad ds rows c = some d ∧ d.valid k N ∧ phG N sk d = phG N sk c + sumMul (ds.map (em N)) (rows.map (phG N sk))
  | [], [], c, _, hc, _ => ⟨c, by simp [scalarGlevMad], hc, by simp [sumMul]⟩
  | [], _ :: _, _, h, _, _ => by simp at h
  | _ :: _, [], _, h, _, _ => by simp at h
  | d :: ds, r :: rows, c, hl, hc, hr => by
    obtain ⟨x, h1, h2, h3⟩ := scalarMadG_phase c r d sk hc (hr r (by simp))
    obtain ⟨y, h4, h5, h6⟩ := scalarGlevMad_spec sk ds rows x (by simpa using hl) h2 fun z hz => hr z (by simp [hz])
    refine ⟨y, by rw [scalarGlevMad, h1]; exact h4, h5, ?_⟩
    rw [h6, h3, List.map_cons, List.map_cons, sumMul]; ring

theorem sumMul_scalar {D E : Nat} {M q : Nega (BitVec W) N} : ∀ (b : Nega (BitVec W) N) (ds : List (BitVec W)) (ps : List (Nega (BitVec W) N)),
    RowsG N E M q b ps → ds.length = ps.length → (∀ d ∈ ds, d.toInt.natAbs ≤ D) →
    ∃ ν, Small N (ds.length * (D * E)) ν ∧ sumMul (ds.map (em N)) ps = M * gsum q b (ds.map (em N)) + ν
  | _, [], [], _, _, _ => ⟨0, by simpa using small_zero, by simp [sumMul, gsum]⟩
  | _, [], _ :: _, _, h, _ => by simp at h
  | _, _ :: _, [], _, h, _ => by simp at h
  | b, d :: ds, p :: ps, ⟨⟨e, he, hp⟩, hr⟩, hl, hd => by
    obtain ⟨ν, h1, h2⟩ := sumMul_scalar (b * q) ds ps hr (by simpa using hl) fun x hx => hd x (by simp [hx])
    refine ⟨em N d * e + ν, ?_, ?_⟩
    · rw [List.length_cons, Nat.add_mul, Nat.one_mul, Nat.add_comm]
      have := he.smul (N := N) d.toInt
      rw [BitVec.ofInt_toInt] at this
      exact (this.mono (Nat.mul_le_mul_right _ (hd d (by simp)))).add h1
    · rw [List.map_cons, sumMul, gsum, h2, hp]; ring

theorem gsum_em {l : Nat} : ∀ (ds : List (BitVec W)) (b : BitVec W),
    gsum (em N (BitVec.ofNat W (2 ^ l))) (em N b) (ds.map (em N)) = em N (b * BitVec.ofInt W (digitSum l ds))
  | [], b => by
    rw [List.map_nil, gsum, digitSum, show BitVec.ofInt W 0 = 0 from rfl, mul_zero]; exact (map_zero _).symm
  | d :: ds, b => by
    rw [List.map_cons, gsum, show em N b * em N (BitVec.ofNat W (2 ^ l)) = em N (b * BitVec.ofNat W (2 ^ l)) by simp only [em, map_mul], gsum_em ds,
      digitSum, BitVec.ofInt_add, BitVec.ofInt_mul, BitVec.ofInt_toInt, ← two_pow_bv]
    simp only [em, map_mul, map_add]; ring

/-- the scalar digits of an element: size, and what they recompose to -/
theorem scalarDigits_spec {r : Radix} (hl : 0 < r.log) (hc : 0 < r.count) (hlt : r.log * r.count < W) (x : BitVec W) :
    ∃ ds, radixDigits x r = some ds ∧ ds.length = r.count ∧ (∀ d ∈ ds, d.toInt.natAbs ≤ 2 ^ (r.log - 1)) ∧
      ∃ err : Int, err.natAbs ≤ 2 ^ (W - r.log * r.count - 1) ∧
        gsum (em N (BitVec.ofNat W (2 ^ r.log))) (em N (BitVec.ofNat W (2 ^ (W - r.log * r.count)))) (ds.map (em N)) = em N (x - BitVec.ofInt W err) := by
  obtain ⟨ds, h1, h2, h3, _⟩ := C45_digits_partial W r hl hc hlt x
  obtain ⟨ds', g1, err, g2, g3, g4⟩ := C45_recompose_partial W r hl hc hlt x 0
  rw [h1] at g1
  cases g1
  refine ⟨ds, h1, h2, ?_, err, ?_, ?_⟩
  · intro d hd
    obtain ⟨a, b⟩ := h3 d hd
    have : ((2 ^ (r.log - 1) : Nat) : Int) = 2 ^ (r.log - 1) := by push_cast; rfl
    rw [← this] at a b
    omega
  · have : ((2 ^ (W - r.log * r.count - 1) : Nat) : Int) = 2 ^ (W - r.log * r.count - 1) := by push_cast; rfl
    rw [← this] at g2 g3
    omega
  · rw [gsum_em]
    rw [recomposeAndAdd, recomposeFrom_eq, zero_add, zero_add] at g4
    rw [g4]

/-- the sum of the absolute values -/
def weight (ss : List (BitVec W)) : Nat := (ss.map fun s => s.toInt.natAbs).sum

/-- one input: `x_i` against GLevs of `s_i u` -/
theorem pfksLoop_chunk {k E : Nat} {r : Radix} (hl : 0 < r.log) (hc : 0 < r.count) (hlt : r.log * r.count < W) (sk : List (List (BitVec W)))
    (u : Nega (BitVec W) N) (xs' : List (BitVec W)) (rows' : List (List (Glwe (BitVec W)))) :
    ∀ (xs ss : List (BitVec W)) (rows : List (List (Glwe (BitVec W)))) (c : Glwe (BitVec W)), xs.length = ss.length →
      List.Forall₂ (fun s row => GlevOk k N r.log r.count E sk (em N s * u) row) ss rows → c.valid k N →
      ∃ c' ν, ∃ δ : Int, pfksLoop r (xs ++ xs') (rows ++ rows') c = pfksLoop r xs' rows' c' ∧ c'.valid k N ∧
        Small N (xs.length * (r.count * (2 ^ (r.log - 1) * E))) ν ∧ δ.natAbs ≤ weight ss * 2 ^ (W - r.log * r.count - 1) ∧
        phG N sk c' = phG N sk c + u * em N (dotAcc xs ss 0 - BitVec.ofInt W δ) + ν
  | [], [], _, c, _, .nil, hcv => ⟨c, 0, 0, rfl, hcv, by simpa using small_zero, by simp, by
      rw [show dotAcc ([] : List (BitVec W)) [] 0 = 0 from rfl, show BitVec.ofInt W 0 = 0 from rfl, sub_zero, em, map_zero, mul_zero]; ring⟩
  | [], _ :: _, _, _, h, _, _ => by simp at h
  | _ :: _, [], _, _, h, _, _ => by simp at h
  | x :: xs, s :: ss, row :: rows, c, hlen, .cons hrow hrest, hcv => by
    obtain ⟨p1, p2, p3⟩ := hrow
    obtain ⟨ds, d1, d2, d3, err, d4, d5⟩ := scalarDigits_spec (N := N) hl hc hlt x
    obtain ⟨y, y1, y2, y3⟩ := scalarGlevMad_spec sk ds row.reverse c (by simp [d2, p1]) hcv (fun z hz => p2 z (by simpa using hz))
    obtain ⟨c', ν, δ, o1, o2, o3, o4, o5⟩ := pfksLoop_chunk hl hc hlt sk u xs' rows' xs ss rows y (by simpa using hlen) hrest y2
    have hR : RowsG N E (em N s * u) (em N (BitVec.ofNat W (2 ^ r.log))) (em N (BitVec.ofNat W (2 ^ (W - r.log * r.count))))
        ((row.map (phG N sk)).reverse) := by
      apply RowsG_reverse (by omega) _ (by simpa using p1)
      intro t ht
      obtain ⟨e, he, hp⟩ := p3 t (by simpa using ht)
      exact ⟨e, he, by rw [List.getElem_map, hp]⟩
    obtain ⟨ν', n1, n2⟩ := sumMul_scalar _ ds _ hR (by simp [d2, p1]) d3
    rw [← List.map_reverse, d5] at n2
    refine ⟨c', ν' + ν, δ + s.toInt * err, ?_, o2, ?_, ?_, ?_⟩
    · rw [List.cons_append, List.cons_append, pfksLoop, d1]; simp only [y1]; exact o1
    · rw [List.length_cons, Nat.add_mul, Nat.one_mul, Nat.add_comm]
      rw [d2] at n1
      exact n1.add o3
    · refine le_trans (Int.natAbs_add_le _ _) ?_
      rw [Int.natAbs_mul, weight, List.map_cons, List.sum_cons, Nat.add_mul, Nat.add_comm]
      exact Nat.add_le_add (Nat.mul_le_mul_left _ d4) o4
    · rw [o5, y3, n2, dotAcc_cons, BitVec.ofInt_add, BitVec.ofInt_mul, BitVec.ofInt_toInt]
      simp only [em, map_sub, map_add, map_mul]; ring

/-- a private functional keyswitch key for the unit images `us`: one chunk of GLevs of `s_i u` for every `u` -/
def PfkOk (k N l c E : Nat) (sk : List (List (BitVec W))) (ss : List (BitVec W)) : List (Nega (BitVec W) N) → List (List (Glwe (BitVec W))) → Prop
  | [], key => key = []
  | u :: us, key => ∃ rows rest, key = rows ++ rest ∧ List.Forall₂ (fun s row => GlevOk k N l c E sk (em N s * u) row) ss rows ∧ PfkOk k N l c E sk ss us rest

theorem PfkOk.shape {k N l c E : Nat} {sk : List (List (BitVec W))} {ss : List (BitVec W)} : ∀ (us : List (Nega (BitVec W) N)) (key : List (List (Glwe (BitVec W)))),
    PfkOk k N l c E sk ss us key → key.length = us.length * ss.length ∧ ∀ row ∈ key, row.length = c ∧ ∀ ct ∈ row, ct.valid k N
  | [], key, h => by rw [PfkOk] at h; subst h; simp
  | u :: us, key, h => by
    obtain ⟨rows, rest, rfl, h1, h2⟩ := h
    obtain ⟨i1, i2⟩ := PfkOk.shape us rest h2
    refine ⟨by rw [List.length_append, ← h1.length_eq, i1, List.length_cons, Nat.add_mul, Nat.one_mul, Nat.add_comm], ?_⟩
    intro row hrow
    rcases List.mem_append.1 hrow with hr | hr
    · obtain ⟨i, hi, rfl⟩ := List.getElem_of_mem hr
      have := (List.forall₂_iff_get.1 h1).2 i (by rw [h1.length_eq]; exact hi) hi
      exact ⟨this.1, this.2.1⟩
    · exact i2 row hr

/-- all the inputs -/
theorem pfksLoop_spec {n k E : Nat} {r : Radix} (hl : 0 < r.log) (hc : 0 < r.count) (hlt : r.log * r.count < W) (hW : 1 < W) (sk : List (List (BitVec W)))
    (s : List (BitVec W)) (hs : s.length = n) : ∀ (us : List (Nega (BitVec W) N)) (inputs : List (Lwe (BitVec W))) (key : List (List (Glwe (BitVec W)))) (c : Glwe (BitVec W)),
      inputs.length = us.length → (∀ x ∈ inputs, x.a.length = n) → PfkOk k N r.log r.count E sk (s ++ [-1]) us key → c.valid k N →
      ∃ c' ν, ∃ xs : List (BitVec W), pfksLoop r (inputs.flatMap fun c => (c.a ++ [c.b]).take (n + 1)) key c = some c' ∧ c'.valid k N ∧
        Small N (inputs.length * ((n + 1) * (r.count * (2 ^ (r.log - 1) * E)))) ν ∧
        List.Forall₂ (Near ((weight s + 1) * 2 ^ (W - r.log * r.count - 1))) xs (inputs.map (ph s)) ∧
        phG N sk c' = phG N sk c - sumMul us (xs.map (em N)) + ν
  | [], [], key, c, _, _, _, hcv => ⟨c, 0, [], by simp [pfksLoop], hcv, by simpa using small_zero, by simp, by simp [sumMul]⟩
  | [], _ :: _, _, _, h, _, _, _ => by simp at h
  | _ :: _, [], _, _, h, _, _, _ => by simp at h
  | u :: us, x :: inputs, key, c, hlen, hin, hkey, hcv => by
    obtain ⟨rows, rest, rfl, k1, k2⟩ := hkey
    have hxa := hin x (by simp)
    have htake : (x.a ++ [x.b]).take (n + 1) = x.a ++ [x.b] := by apply List.take_of_length_le; simp [hxa]
    obtain ⟨c1, ν, δ, a1, a2, a3, a4, a5⟩ := pfksLoop_chunk hl hc hlt sk u (inputs.flatMap fun c => (c.a ++ [c.b]).take (n + 1)) rest (x.a ++ [x.b])
      (s ++ [-1]) rows c (by simp [hxa, hs]) k1 hcv
    obtain ⟨c2, ν', xs, b1, b2, b3, b4, b5⟩ := pfksLoop_spec hl hc hlt hW sk s hs us inputs rest c1 (by simpa using hlen) (fun y hy => hin y (by simp [hy])) k2 a2
    refine ⟨c2, ν + ν', (ph s x + BitVec.ofInt W δ) :: xs, ?_, b2, ?_, ?_, ?_⟩
    · rw [List.flatMap_cons, htake, a1, b1]
    · rw [List.length_cons, Nat.add_mul, Nat.one_mul, Nat.add_comm]
      rw [List.length_append, List.length_singleton, hxa] at a3
      exact a3.add b3
    · rw [List.map_cons]
      refine .cons ⟨δ, ?_, rfl⟩ b4
      have hw : weight (s ++ [(-1 : BitVec W)]) = weight s + 1 := by
        have h1 : (-1 : BitVec W).toInt.natAbs = 1 := by
          have hp : (2 : Nat) ^ 1 < 2 ^ W := Nat.pow_lt_pow_right (by decide) hW
          have : (-1 : BitVec W) = BitVec.ofInt W (-1) := by rw [BitVec.ofInt_neg]; rfl
          rw [this, BitVec.toInt_ofInt_eq_self (by omega) (by
            have : (2 : Int) ^ (W - 1) ≥ 1 := by exact_mod_cast Nat.one_le_two_pow
            omega) (by
            have : (2 : Int) ^ (W - 1) ≥ 1 := by exact_mod_cast Nat.one_le_two_pow
            omega)]
          decide
        rw [weight, List.map_append, List.sum_append, List.map_singleton, List.sum_singleton, h1]; rfl
      rw [hw] at a4
      exact a4
    · rw [b5, a5, List.map_cons, sumMul, dotAcc_append _ _ _ _ (by rw [hxa, hs])]
      simp only [dotAcc, ph, em, map_sub, map_add, map_mul, map_neg, map_one, map_zero]
      ring

/-- the image of `v` at position `z` -/
noncomputable def imgAt (N p : Nat) (f : List (BitVec W) → Option (List (BitVec W))) (z : Nat) (v : BitVec W) : Nega (BitVec W) N :=
  cls N ((f ((List.replicate p 0).set z v)).getD [])

theorem zip_set {p z : Nat} (a b : BitVec W) :
    List.zipWith (· + ·) ((List.replicate p 0).set z a) ((List.replicate p 0).set z b) = (List.replicate p (0 : BitVec W)).set z (a + b) := by
  apply List.ext_getElem?
  intro i
  rw [List.getElem?_zipWith, List.getElem?_set, List.getElem?_set, List.getElem?_set]
  by_cases h : z = i
  · subst h
    by_cases hz : z < p <;> simp [hz]
  · simp [h, List.getElem?_replicate]
    by_cases hi : i < p <;> simp [hi]

theorem morph_cls {p R : Nat} {f : List (BitVec W) → Option (List (BitVec W))} (hf : Morphism N p R f) (x x' : List (BitVec W)) (hx : x.length = p) (hx' : x'.length = p) :
    cls N ((f (List.zipWith (· + ·) x x')).getD []) = cls N ((f x).getD []) + cls N ((f x').getD []) := by
  obtain ⟨y, h1, h2⟩ := hf.total x hx
  obtain ⟨y', h3, h4⟩ := hf.total x' hx'
  rw [hf.add x x' y y' hx hx' h1 h3, h1, h3]
  exact cls_zipWith_add _ _ _ (by omega)

theorem imgAt_add {p R : Nat} {f : List (BitVec W) → Option (List (BitVec W))} (hf : Morphism N p R f) (z : Nat) (a b : BitVec W) :
    imgAt N p f z (a + b) = imgAt N p f z a + imgAt N p f z b := by
  rw [imgAt, ← zip_set, morph_cls hf _ _ (by simp) (by simp)]; rfl

theorem imgAt_zero {p R : Nat} {f : List (BitVec W) → Option (List (BitVec W))} (hf : Morphism N p R f) (z : Nat) : imgAt N p f z 0 = 0 := by
  have h := imgAt_add hf z 0 0
  rw [add_zero] at h
  exact left_eq_add.1 h

/-- additive maps of the torus are linear -/
theorem imgAt_mul {p R : Nat} {f : List (BitVec W) → Option (List (BitVec W))} (hf : Morphism N p R f) (z : Nat) (v : BitVec W) :
    imgAt N p f z v = em N v * imgAt N p f z 1 := by
  have key : ∀ m : Nat, imgAt N p f z (BitVec.ofNat W m) = em N (BitVec.ofNat W m) * imgAt N p f z 1 := by
    intro m
    induction m with
    | zero =>
      rw [show BitVec.ofNat W 0 = 0 from rfl, imgAt_zero hf, em, map_zero, zero_mul]
    | succ m ih =>
      rw [BitVec.ofNat_add, imgAt_add hf, ih, em, em, map_add, show BitVec.ofNat W 1 = 1 from rfl, map_one]; ring
  have := key v.toNat
  rwa [BitVec.ofNat_toNat, BitVec.setWidth_eq] at this

theorem morph_sum {p R : Nat} {f : List (BitVec W) → Option (List (BitVec W))} (hf : Morphism N p R f) : ∀ (xs : List (BitVec W)) (z : Nat), z + xs.length = p →
    cls N ((f (List.replicate z 0 ++ xs)).getD []) = sumMul ((List.range' z xs.length).map fun z => imgAt N p f z 1) (xs.map (em N))
  | [], z, h => by
    have h0 := imgAt_zero hf p
    rw [imgAt, List.set_eq_of_length_le (by simp)] at h0
    simp only [List.length_nil, Nat.add_zero] at h
    subst h
    simpa [sumMul] using h0
  | x :: xs, z, h => by
    simp only [List.length_cons] at h
    have hsplit : List.replicate z 0 ++ x :: xs = List.zipWith (· + ·) ((List.replicate p 0).set z x) (List.replicate (z + 1) 0 ++ xs) := by
      apply List.ext_getElem?
      intro i
      rw [List.getElem?_zipWith, List.getElem?_set]
      rcases Nat.lt_trichotomy i z with hi | hi | hi
      · rw [List.getElem?_append_left (by simpa using hi), List.getElem?_append_left (by simp; omega)]
        simp [show ¬ z = i by omega, hi, show i < p by omega, show i < z + 1 by omega]
      · subst hi
        rw [List.getElem?_append_right (by simp), List.getElem?_append_left (by simp)]
        simp [show i < p by omega]
      · rw [List.getElem?_append_right (by simp; omega), List.getElem?_append_right (by simp; omega)]
        simp only [List.length_replicate]
        obtain ⟨t, rfl⟩ : ∃ t, i = z + 1 + t := ⟨i - z - 1, by omega⟩
        rw [show z + 1 + t - z = t + 1 by omega, show z + 1 + t - (z + 1) = t by omega, List.getElem?_cons_succ]
        simp only [show ¬ z = z + 1 + t by omega, if_false, List.getElem?_replicate]
        by_cases ht : t < xs.length
        · simp [ht, show z + 1 + t < p by omega]
        · simp [show xs[t]? = none by simp; omega]
    rw [hsplit, morph_cls hf _ _ (by simp) (by simp; omega), morph_sum hf xs (z + 1) (by omega), List.length_cons, List.range'_succ, List.map_cons, List.map_cons, sumMul]
    rw [← imgAt_mul' hf]
    rfl
where
  imgAt_mul' {p R : Nat} {f : List (BitVec W) → Option (List (BitVec W))} (hf : Morphism N p R f) {z : Nat} {v : BitVec W} :
      imgAt N p f z v = imgAt N p f z 1 * em N v := by rw [imgAt_mul hf, mul_comm]

theorem pfkGlev_spec {n k p R E : Nat} {r : Radix} (map : List (BitVec W) → List (BitVec W) → Option (List (BitVec W)))
    (hf : Morphism (2 ^ n) p R (map (List.replicate (2 ^ n) 0))) (z : Nat) (s : BitVec W) (sk : List (List (BitVec W))) (hsk : KeyFor sk k (2 ^ n))
    (masks : Nat → List (List (BitVec W))) (noise : Nat → Option (List Int)) (hma : ∀ j, KeyFor (masks j) k (2 ^ n)) (hno : ∀ j, NoiseOk (2 ^ n) E (noise j)) :
    ∀ (j : Nat) (bufs : List (Glwe (BitVec W))), (∀ b ∈ bufs, FreshBuf k (2 ^ n) b) →
    ∃ row, pfkGlev (2 ^ n) p r map z s sk masks (fun j => (noise j).map fun l => l.map (BitVec.ofInt W)) j bufs = some row ∧ row.length = bufs.length ∧
      (∀ r ∈ row, r.valid k (2 ^ n)) ∧ ∀ t (h : t < row.length), ∃ e, Small (2 ^ n) E e ∧
        phG (2 ^ n) sk row[t] = em (2 ^ n) s * imgAt (2 ^ n) p (map (List.replicate (2 ^ n) 0)) z 1 * em (2 ^ n) (BitVec.ofNat W (2 ^ (W - r.log * (j + t + 1)))) + e
  | j, [], _ => ⟨[], rfl, rfl, by simp, by intro t h; simp at h⟩
  | j, buf :: bufs, hb => by
    obtain ⟨row, h1, h2, h3, h4⟩ := pfkGlev_spec (r := r) map hf z s sk hsk masks noise hma hno (j + 1) bufs fun b hb' => hb b (by simp [hb'])
    obtain ⟨pt, m1, m2⟩ := hf.total ((List.replicate p 0).set z (scaleByFactor s j r)) (by simp)
    obtain ⟨ct, c1, c2, c3⟩ := glweEncrypt_phase buf pt sk (masks j) ((noise j).map fun l => l.map (BitVec.ofInt W)) (hb buf (by simp)) m2 hsk (hma j) (by
        intro e he
        cases hn : noise j with
        | none => rw [hn] at he; simp at he
        | some l =>
          rw [hn] at he
          simp only [Option.map_some, Option.some.injEq] at he
          rw [← he, List.length_map]; exact (hno j l hn).1)
    refine ⟨ct :: row, ?_, by simp [h2], ?_, ?_⟩
    · rw [pfkGlev, m1]
      simp only [c1, h1]
    · intro r hr
      simp only [List.mem_cons] at hr
      rcases hr with rfl | hr
      · exact c2
      · exact h3 r hr
    · intro t ht
      cases t with
      | zero =>
        refine ⟨_, noise_small (noise j) (hno j), ?_⟩
        simp only [List.getElem_cons_zero, Nat.add_zero]
        rw [c3]
        have h5 := imgAt_mul hf z (scaleByFactor s j r)
        rw [imgAt, m1, Option.getD_some] at h5
        rw [h5, scaleByFactor]
        simp only [em, map_mul]; ring
      | succ t =>
        obtain ⟨e, h5, h6⟩ := h4 t (by simpa using ht)
        refine ⟨e, h5, ?_⟩
        rw [List.getElem_cons_succ, h6, show j + 1 + t = j + (t + 1) by omega]

theorem pfkChunk_spec {n k p R E : Nat} {r : Radix} (map : List (BitVec W) → List (BitVec W) → Option (List (BitVec W)))
    (hf : Morphism (2 ^ n) p R (map (List.replicate (2 ^ n) 0))) (z : Nat) (sk : List (List (BitVec W))) (hsk : KeyFor sk k (2 ^ n))
    (masks : Nat → Nat → List (List (BitVec W))) (noise : Nat → Nat → Option (List Int)) (hma : ∀ i j, KeyFor (masks i j) k (2 ^ n))
    (hno : ∀ i j, NoiseOk (2 ^ n) E (noise i j)) : ∀ (i : Nat) (ss : List (BitVec W)) (rows : List (List (Glwe (BitVec W)))), ss.length = rows.length →
    (∀ row ∈ rows, row.length = r.count ∧ ∀ b ∈ row, FreshBuf k (2 ^ n) b) →
    ∃ gs, pfkChunk (2 ^ n) p r map z sk masks (fun i j => (noise i j).map fun l => l.map (BitVec.ofInt W)) i ss rows = some gs ∧
      List.Forall₂ (fun s row => GlevOk k (2 ^ n) r.log r.count E sk (em (2 ^ n) s * imgAt (2 ^ n) p (map (List.replicate (2 ^ n) 0)) z 1) row) ss gs
  | i, [], [], _, _ => ⟨[], by simp [pfkChunk], .nil⟩
  | i, [], _ :: _, h, _ => by simp at h
  | i, _ :: _, [], h, _ => by simp at h
  | i, s :: ss, row :: rows, h, hb => by
    obtain ⟨b1, b2⟩ := hb row (by simp)
    obtain ⟨g, h1, h2, h3, h4⟩ := pfkGlev_spec (r := r) map hf z s sk hsk (masks i) (noise i) (hma i) (hno i) 0 row b2
    obtain ⟨gs, g1, g2⟩ := pfkChunk_spec (r := r) map hf z sk hsk masks noise hma hno (i + 1) ss rows (by simpa using h) fun y hy => hb y (by simp [hy])
    refine ⟨g :: gs, by rw [pfkChunk, h1]; simp only [g1], .cons ⟨by rw [h2, b1], h3, fun t ht => ?_⟩ g2⟩
    obtain ⟨e, e1, e2⟩ := h4 t ht
    exact ⟨e, e1, by rw [e2, Nat.zero_add]⟩

theorem pfkLoop_spec {n k m p R E : Nat} {r : Radix} (map : List (BitVec W) → List (BitVec W) → Option (List (BitVec W)))
    (hf : Morphism (2 ^ n) p R (map (List.replicate (2 ^ n) 0))) (s : List (BitVec W)) (hs : s.length = m) (sk : List (List (BitVec W))) (hsk : KeyFor sk k (2 ^ n))
    (masks : Nat → Nat → Nat → List (List (BitVec W))) (noise : Nat → Nat → Nat → Option (List Int)) (hma : ∀ h i j, KeyFor (masks h i j) k (2 ^ n))
    (hno : ∀ h i j, NoiseOk (2 ^ n) E (noise h i j)) : ∀ (c z : Nat) (rows : List (List (Glwe (BitVec W)))), rows.length = c * (m + 1) →
    (∀ row ∈ rows, row.length = r.count ∧ ∀ b ∈ row, FreshBuf k (2 ^ n) b) →
    ∃ key, pfkLoop m (2 ^ n) p r map s sk masks (fun h i j => (noise h i j).map fun l => l.map (BitVec.ofInt W)) c z rows = some key ∧
      PfkOk k (2 ^ n) r.log r.count E sk (s ++ [-1]) ((List.range' z c).map fun z => imgAt (2 ^ n) p (map (List.replicate (2 ^ n) 0)) z 1) key
  | 0, z, rows, h, _ => by
    have : rows = [] := List.length_eq_zero_iff.1 (by simpa using h)
    subst this
    exact ⟨[], rfl, rfl⟩
  | c + 1, z, rows, h, hb => by
    rw [Nat.add_mul, Nat.one_mul] at h
    obtain ⟨gs, g1, g2⟩ := pfkChunk_spec (r := r) map hf z sk hsk (masks z) (noise z) (hma z) (hno z) 0 (s ++ [-1]) (rows.take (m + 1)) (by simp [hs]; omega)
      fun y hy => hb y (List.mem_of_mem_take hy)
    obtain ⟨key, k1, k2⟩ := pfkLoop_spec (r := r) map hf s hs sk hsk masks noise hma hno c (z + 1) (rows.drop (m + 1)) (by simp; omega)
      fun y hy => hb y (List.mem_of_mem_drop hy)
    exact ⟨gs ++ key, by rw [pfkLoop, g1]; simp only [k1], gs, key, rfl, g2, k2⟩

/-- The keyswitch on phases. -/
theorem pfks_spec {n k m p R E : Nat} {r : Radix} (hl : 0 < r.log) (hc : 0 < r.count) (hlt : r.log * r.count < W) (hm : 0 < m) (hk : 0 < k) (hp : 0 < p) (hW : 1 < W)
    (f : List (BitVec W) → Option (List (BitVec W))) (hf : Morphism (2 ^ n) p R f) (s : List (BitVec W)) (hs : s.length = m) (sk : List (List (BitVec W)))
    (key : List (List (Glwe (BitVec W)))) (hkey : PfkOk k (2 ^ n) r.log r.count E sk (s ++ [-1]) ((List.range' 0 p).map fun z => imgAt (2 ^ n) p f z 1) key)
    (inputs : List (Lwe (BitVec W))) (hin : inputs.length = p) (hina : ∀ x ∈ inputs, x.a.length = m) (out : Glwe (BitVec W)) (hout : out.valid k (2 ^ n)) :
    ∃ c q, pfks m k (2 ^ n) p r out inputs key = some c ∧ c.valid k (2 ^ n) ∧ f (inputs.map (ph s)) = some q ∧ q.length = 2 ^ n ∧
      Small (2 ^ n) (R * ((weight s + 1) * 2 ^ (W - r.log * r.count - 1)) + p * ((m + 1) * (r.count * (2 ^ (r.log - 1) * E))))
        (phG (2 ^ n) sk c - (cls (2 ^ n) q - phG (2 ^ n) sk out)) := by
  obtain ⟨sh1, sh2⟩ := PfkOk.shape _ _ hkey
  have hval : r.valid W = true := by
    have := Nat.mul_comm r.log r.count
    simp only [Radix.valid, Bool.and_eq_true, decide_eq_true_eq]; omega
  obtain ⟨c, ν, xs, h1, h2, h3, h4, h5⟩ := pfksLoop_spec hl hc hlt hW sk s hs _ inputs key out (by simp [hin]) hina hkey hout
  have hxl : xs.length = p := by rw [h4.length_eq, List.length_map, hin]
  obtain ⟨q, q1, q2⟩ := hf.total (inputs.map (ph s)) (by simp [hin])
  obtain ⟨q', q3, q4⟩ := hf.total xs hxl
  obtain ⟨n1, n2⟩ := neg_phase c sk h2
  refine ⟨glweNeg c, q, ?_, n1, q1, q2, ?_⟩
  · rw [pfks, if_pos ⟨hout, ⟨by rw [sh1]; simp [hs], sh2⟩, hm, hk, isPow2_iff.mpr ⟨n, rfl⟩, hval, hp, hin, fun c hc => by rw [hina c hc]⟩, h1]
  · have hsum := morph_sum hf xs 0 (by omega)
    rw [List.replicate_zero, List.nil_append, q3, Option.getD_some, hxl] at hsum
    have hlip := small_of_nearPoly q4 (hf.lipschitz _ xs _ q' q hxl h4 q3 q1)
    rw [hin] at h3
    have key : phG (2 ^ n) sk (glweNeg c) - (cls (2 ^ n) q - phG (2 ^ n) sk out) = (cls (2 ^ n) q' - cls (2 ^ n) q) - ν := by
      rw [n2, h5, ← hsum]; ring
    rw [key]
    exact hlip.sub h3

end Spf.Tfhe
