import Verif.Proof.Pfks
import Verif.Model.Pufks
/-! Public functional keyswitching on phases. -/
namespace Spf.Tfhe
open Spf.Spec Spf.Props

variable {W N : Nat}

theorem pufkGlev_spec {n k E : Nat} {r : Radix} (s : BitVec W) (sk : List (List (BitVec W))) (hsk : KeyFor sk k (2 ^ n))
    (masks : Nat → List (List (BitVec W))) (noise : Nat → Option (List Int)) (hma : ∀ j, KeyFor (masks j) k (2 ^ n)) (hno : ∀ j, NoiseOk (2 ^ n) E (noise j)) :
    ∀ (j : Nat) (bufs : List (Glwe (BitVec W))), (∀ b ∈ bufs, FreshBuf k (2 ^ n) b) →
    ∃ row, pufkGlev (2 ^ n) r s sk masks (fun j => (noise j).map fun l => l.map (BitVec.ofInt W)) j bufs = some row ∧ row.length = bufs.length ∧
      (∀ r ∈ row, r.valid k (2 ^ n)) ∧ ∀ t (h : t < row.length), ∃ e, Small (2 ^ n) E e ∧
        phG (2 ^ n) sk row[t] = em (2 ^ n) s * em (2 ^ n) (BitVec.ofNat W (2 ^ (W - r.log * (j + t + 1)))) + e
  | j, [], _ => ⟨[], rfl, rfl, by simp, by intro t h; simp at h⟩
  | j, buf :: bufs, hb => by
    obtain ⟨row, h1, h2, h3, h4⟩ := pufkGlev_spec (r := r) s sk hsk masks noise hma hno (j + 1) bufs fun b hb' => hb b (by simp [hb'])
    obtain ⟨ct, c1, c2, c3⟩ := glweEncrypt_phase buf ((List.replicate (2 ^ n) 0).set 0 (scaleByFactor s j r)) sk (masks j)
      ((noise j).map fun l => l.map (BitVec.ofInt W)) (hb buf (by simp)) (by simp) hsk (hma j) (by
        intro e he
        cases hn : noise j with
        | none => rw [hn] at he; simp at he
        | some l =>
          rw [hn] at he
          simp only [Option.map_some, Option.some.injEq] at he
          rw [← he, List.length_map]; exact (hno j l hn).1)
    have hset : (List.replicate (2 ^ n) 0).set 0 (scaleByFactor s j r) = scaleByFactor s j r :: List.replicate (2 ^ n - 1) 0 := by
      obtain ⟨m, hm⟩ : ∃ m, 2 ^ n = m + 1 := ⟨2 ^ n - 1, by have := Nat.one_le_two_pow (n := n); omega⟩
      rw [hm, List.replicate_succ, List.set_cons_zero]; rfl
    refine ⟨ct :: row, ?_, by simp [h2], ?_, ?_⟩
    · rw [pufkGlev, c1]
      simp only [h1]
    · intro r hr
      simp only [List.mem_cons] at hr
      rcases hr with rfl | hr
      · exact c2
      · exact h3 r hr
    · intro t ht
      cases t with
      | zero =>
        refine ⟨_, noise_small (noise j) (hno j), ?_⟩
        simp only [List.getElem_cons_zero, Nat.add_zero]
        rw [c3, hset, cls_const, scaleByFactor]
        simp only [em, map_mul]
      | succ t =>
        obtain ⟨e, h5, h6⟩ := h4 t (by simpa using ht)
        refine ⟨e, h5, ?_⟩
        rw [List.getElem_cons_succ, h6, show j + 1 + t = j + (t + 1) by omega]

theorem pufkLoop_spec {n k E : Nat} {r : Radix} (sk : List (List (BitVec W))) (hsk : KeyFor sk k (2 ^ n))
    (masks : Nat → Nat → List (List (BitVec W))) (noise : Nat → Nat → Option (List Int)) (hma : ∀ i j, KeyFor (masks i j) k (2 ^ n))
    (hno : ∀ i j, NoiseOk (2 ^ n) E (noise i j)) : ∀ (i : Nat) (ss : List (BitVec W)) (rows : List (List (Glwe (BitVec W)))), ss.length = rows.length →
    (∀ row ∈ rows, row.length = r.count ∧ ∀ b ∈ row, FreshBuf k (2 ^ n) b) →
    ∃ gs, pufkLoop (2 ^ n) r sk masks (fun i j => (noise i j).map fun l => l.map (BitVec.ofInt W)) i ss rows = some gs ∧
      List.Forall₂ (GlevOk k (2 ^ n) r.log r.count E sk) (ss.map (em (2 ^ n))) gs
  | i, [], [], _, _ => ⟨[], by simp [pufkLoop], .nil⟩
  | i, [], _ :: _, h, _ => by simp at h
  | i, _ :: _, [], h, _ => by simp at h
  | i, s :: ss, row :: rows, h, hb => by
    obtain ⟨b1, b2⟩ := hb row (by simp)
    obtain ⟨g, h1, h2, h3, h4⟩ := pufkGlev_spec (r := r) s sk hsk (masks i) (noise i) (hma i) (hno i) 0 row b2
    obtain ⟨gs, g1, g2⟩ := pufkLoop_spec (r := r) sk hsk masks noise hma hno (i + 1) ss rows (by simpa using h) fun y hy => hb y (by simp [hy])
    refine ⟨g :: gs, by rw [pufkLoop, h1]; simp only [g1], .cons ⟨by rw [h2, b1], h3, fun t ht => ?_⟩ g2⟩
    obtain ⟨e, e1, e2⟩ := h4 t ht
    exact ⟨e, e1, by rw [e2, Nat.zero_add]⟩

/-- on polynomials in `I`, `f` gives what it gives on the zero polynomial, and the result is in `I` again -/
def Resets (N p : Nat) (f : List (BitVec W) → List (BitVec W) → Option (List (BitVec W))) (I : List (BitVec W) → Prop) : Prop :=
  ∀ poly, I poly → ∀ xs : List (BitVec W), xs.length = p → f poly xs = f (List.replicate N 0) xs ∧ ∀ q, f (List.replicate N 0) xs = some q → I q

/-- the loop is the loop of the external product on the images of the columns -/
theorem pufksLoop_spec {p R : Nat} {r : Radix} (f : List (BitVec W) → List (BitVec W) → Option (List (BitVec W))) (I : List (BitVec W) → Prop)
    (hf : Morphism N p R (f (List.replicate N 0))) (hI : Resets N p f I) (inputs : List (Lwe (BitVec W))) (hin : inputs.length = p) :
    ∀ (i : Nat) (rows : List (List (Glwe (BitVec W)))) (poly : List (BitVec W)) (c c' : Glwe (BitVec W)), I poly →
      ggswMadLoop N r ((List.range' i rows.length).map fun i => (f (List.replicate N 0) (inputs.map fun x => x.a.getD i 0)).getD []) rows c = some c' →
      ∃ poly', I poly' ∧ pufksLoop N r f inputs i rows poly c = some (poly', c')
  | i, [], poly, c, c', hp, h => by
    simp only [List.length_nil, List.range'_zero, List.map_nil, ggswMadLoop, Option.some.injEq] at h
    exact ⟨poly, hp, by rw [pufksLoop, h]⟩
  | i, row :: rows, poly, c, c', hp, h => by
    obtain ⟨q, q1, q2⟩ := hf.total (inputs.map fun x => x.a.getD i 0) (by simpa using hin)
    obtain ⟨e1, e2⟩ := hI poly hp (inputs.map fun x => x.a.getD i 0) (by simpa using hin)
    rw [List.length_cons, List.range'_succ, List.map_cons, q1, Option.getD_some, ggswMadLoop] at h
    rw [pufksLoop, e1, q1]
    simp only
    cases hd : polyDigits q r with
    | none => rw [hd] at h; simp at h
    | some ds =>
      rw [hd] at h
      simp only at h ⊢
      cases hg : glevMad ds (List.replicate N 0) row.reverse c with
      | none => rw [hg] at h; simp at h
      | some c1 =>
        rw [hg] at h
        exact pufksLoop_spec f I hf hI inputs hin (i + 1) rows q c1 c' (e2 q q1) h

theorem morph_smul {p R : Nat} {f : List (BitVec W) → Option (List (BitVec W))} (hf : Morphism N p R f) (c : BitVec W) (x : List (BitVec W)) (hx : x.length = p) :
    em N c * cls N ((f x).getD []) = cls N ((f (x.map fun v => v * c)).getD []) := by
  have h1 := morph_sum hf x 0 (by omega)
  have h2 := morph_sum hf (x.map fun v => v * c) 0 (by simp; omega)
  rw [List.replicate_zero, List.nil_append] at h1 h2
  rw [h1, h2, List.length_map]
  generalize (List.range' 0 x.length).map (fun z => imgAt N p f z 1) = us
  clear h1 h2 hx
  induction x generalizing us with
  | nil => cases us <;> simp [sumMul]
  | cons v x ih =>
    cases us with
    | nil => simp [sumMul]
    | cons u us =>
      rw [List.map_cons, List.map_cons, List.map_cons, sumMul, sumMul, ← ih us]
      simp only [em, map_mul]; ring

theorem morph_zero {p R : Nat} {f : List (BitVec W) → Option (List (BitVec W))} (hf : Morphism N p R f) : cls N ((f (List.replicate p 0)).getD []) = 0 := by
  have h0 := imgAt_zero hf p
  rwa [imgAt, List.set_eq_of_length_le (by simp)] at h0

/-- the columns against the key: the image of the inner products -/
theorem columns {p R : Nat} {f : List (BitVec W) → Option (List (BitVec W))} (hf : Morphism N p R f) : ∀ (ss : List (BitVec W)) (as : List (List (BitVec W))),
    as.length = p → (∀ a ∈ as, a.length = ss.length) → ∀ i (full : List (List (BitVec W))), as = full.map (List.drop i) →
    sumMul (ss.map (em N)) ((List.range' i ss.length).map fun i => cls N ((f (full.map fun a => a.getD i 0)).getD [])) =
      cls N ((f (as.map fun a => dotAcc a ss 0)).getD [])
  | [], as, h, hl, i, full, hfull => by
    have : (as.map fun a => dotAcc a [] (0 : BitVec W)) = List.replicate p 0 := by
      apply List.ext_getElem
      · simp [h]
      · intro j h1 h2
        rw [List.getElem_map, List.getElem_replicate]
        cases as[j]'(by simpa using h1) <;> rfl
    rw [this, morph_zero hf]; simp [sumMul]
  | s :: ss, as, h, hl, i, full, hfull => by
    have htail : as.map List.tail = full.map (List.drop (i + 1)) := by
      rw [hfull, List.map_map]
      apply List.map_congr_left
      intro a _
      simp
    have ih := columns hf ss (as.map List.tail) (by simpa using h) (by
      intro a ha
      obtain ⟨b, hb, rfl⟩ := List.mem_map.1 ha
      rw [List.length_tail, hl b hb, List.length_cons]; rfl) (i + 1) full htail
    rw [List.length_cons, List.range'_succ, List.map_cons, List.map_cons, sumMul, ih,
      morph_smul hf s _ (by rw [List.length_map, ← h, hfull, List.length_map]), ← morph_cls hf _ _ (by simp [← h, hfull]) (by simpa using h)]
    congr 3
    apply List.ext_getElem
    · simp [hfull]
    · intro j h1 h2
      have hj : j < full.length := by simp [hfull] at h2; exact h2
      have hja : j < as.length := by simpa using h2
      simp only [List.getElem_zipWith, List.getElem_map]
      have e1 : as[j] = (full[j]).drop i := by simp [hfull]
      have e2 : i < (full[j]).length := by
        have := hl as[j] (List.getElem_mem _)
        rw [e1, List.length_drop, List.length_cons] at this; omega
      rw [e1, List.drop_eq_getElem_cons e2, List.tail_cons, dotAcc_cons]
      simp [List.getD, e2]

theorem weight_err {B : Nat} : ∀ (ss : List (BitVec W)) (es : List (Nega (BitVec W) N)), es.length = ss.length → (∀ e ∈ es, Small N B e) →
    Small N (weight ss * B) (sumMul (ss.map (em N)) es)
  | [], [], _, _ => by simpa [weight, sumMul] using small_zero
  | [], _ :: _, h, _ => by simp at h
  | _ :: _, [], h, _ => by simp at h
  | s :: ss, e :: es, h, he => by
    have ih := weight_err ss es (by simpa using h) fun z hz => he z (by simp [hz])
    have h1 := (he e (by simp)).smul s.toInt
    rw [BitVec.ofInt_toInt] at h1
    rw [List.map_cons, sumMul, weight, List.map_cons, List.sum_cons, Nat.add_mul]
    exact h1.add ih

/-- the error of a public functional keyswitch -/
def pufksBound (W n k N : Nat) (r : Radix) (S E F wt : Nat) : Nat :=
  wt * 2 ^ (W - r.log * r.count - 1) + n * (r.count * (N * (2 ^ (r.log - 1) * E))) + (F + k * (N * (F * S)))

theorem pufks_spec {m k p R E S F : Nat} {r : Radix} (hN : isPow2 N = true) (hl : 0 < r.log) (hc : 0 < r.count) (hlt : r.log * r.count < W)
    (f : List (BitVec W) → List (BitVec W) → Option (List (BitVec W))) (I : List (BitVec W) → Prop)
    (hf : Morphism N p R (f (List.replicate N 0))) (hI : Resets N p f I) (s : List (BitVec W)) (hs : s.length = m) (sk : List (List (BitVec W)))
    (hskl : sk.length = k) (hS : ∀ s ∈ sk, Small N S (cls N s)) (key : List (List (Glwe (BitVec W))))
    (hkey : List.Forall₂ (GlevOk k N r.log r.count E sk) (s.map (em N)) key)
    (inputs : List (Lwe (BitVec W))) (hin : inputs.length = p) (hp : p ≤ N) (hina : ∀ x ∈ inputs, x.a.length = m)
    (poly : List (BitVec W)) (hpoly : I poly) (fe : Glwe (BitVec W)) (hfe : FftErr k N F fe) :
    ∃ c q, pufks m k N r fe poly f inputs key = some c ∧ c.valid k N ∧ f (List.replicate N 0) (inputs.map (ph s)) = some q ∧ q.length = N ∧
      Small N (pufksBound W m k N r S E F (weight s)) (phG N sk c - cls N q) := by
  have hkl : key.length = m := by rw [← hkey.length_eq, List.length_map, hs]
  have hshape : pufkShape m k N r.count key := by
    refine ⟨hkl, fun row hrow => ?_⟩
    obtain ⟨i, hi, rfl⟩ := List.getElem_of_mem hrow
    have := (List.forall₂_iff_get.1 hkey).2 i (by rw [hkey.length_eq]; exact hi) hi
    exact ⟨this.1, this.2.1⟩
  obtain ⟨sum, errs, ν, o1, o2, o3, o4, o5, o6⟩ := ggswMadLoop_spec hN hl hc hlt sk
    ((List.range' 0 key.length).map fun i => (f (List.replicate N 0) (inputs.map fun x => x.a.getD i 0)).getD []) (s.map (em N)) key (glweZero k N)
    (by simp [hkl, hs]) (by
      intro z hz
      obtain ⟨i, _, rfl⟩ := List.mem_map.1 hz
      obtain ⟨q, q1, q2⟩ := hf.total (inputs.map fun x => x.a.getD i 0) (by simpa using hin)
      rw [q1, Option.getD_some]; exact q2) hkey (glweZero_valid k N)
  obtain ⟨poly', p1, p2⟩ := pufksLoop_spec (r := r) f I hf hI inputs hin 0 key poly (glweZero k N) sum hpoly o1
  obtain ⟨qb, b1, b2⟩ := hf.total (inputs.map fun x => x.b) (by simpa using hin)
  obtain ⟨q, q1, q2⟩ := hf.total (inputs.map (ph s)) (by simpa using hin)
  obtain ⟨e1, e2⟩ := hI poly' p1 (inputs.map fun x => x.b) (by simpa using hin)
  obtain ⟨s2, a1, a2, a3⟩ := add_phase sum fe sk o2 hfe.1
  obtain ⟨n1, n2⟩ := neg_phase s2 sk a2
  have hadd : polyAddAssign (glweNeg s2).b qb = List.zipWith (· + ·) (glweNeg s2).b qb := by
    rw [polyAddAssign, zipAssign_eq _ _ _ (by rw [n1.2.2, b2])]
  refine ⟨⟨(glweNeg s2).a, List.zipWith (· + ·) (glweNeg s2).b qb⟩, q, ?_, ⟨n1.1, n1.2.1, by simp [n1.2.2, b2]⟩, q1, q2, ?_⟩
  · rw [pufks, if_pos ⟨hshape, hina, by omega⟩, p2]
    simp only [e1, b1, a1, hadd]
  · have hcol := columns hf s (inputs.map fun x => x.a) (by simpa using hin) (by
      intro a ha
      obtain ⟨x, hx, rfl⟩ := List.mem_map.1 ha
      rw [hina x hx, hs]) 0 (inputs.map fun x => x.a) (by simp)
    have hmaps : ((List.range' 0 key.length).map fun i => (f (List.replicate N 0) (inputs.map fun x => x.a.getD i 0)).getD []).map (cls N) =
        (List.range' 0 s.length).map fun i => cls N ((f (List.replicate N 0) ((inputs.map fun x => x.a).map fun a => a.getD i 0)).getD []) := by
      rw [hkl, hs, List.map_map]
      apply List.map_congr_left
      intro i _
      simp only [Function.comp, List.map_map]
      rfl
    have hph : cls N ((f (List.replicate N 0) (inputs.map fun x => x.b)).getD []) =
        cls N ((f (List.replicate N 0) (inputs.map (ph s))).getD []) + cls N ((f (List.replicate N 0) ((inputs.map fun x => x.a).map fun a => dotAcc a s 0)).getD []) := by
      rw [← morph_cls hf _ _ (by simpa using hin) (by simpa using hin)]
      congr 3
      apply List.ext_getElem
      · simp
      · intro j h1 h2
        simp [ph]
    rw [b1, q1, Option.getD_some, Option.getD_some] at hph
    have herr := weight_err s errs (by rw [o3]; simp [hkl, hs]) o4
    have hfs : Small N (F + k * (N * (F * S))) (phG N sk fe) := by
      have := fe_small (F := F) (S := S) sk fe.a (by rw [hfe.1.1, hskl]) hS fun a ha => small_of_bound (hfe.1.2.1 a ha) (hfe.2 a (by simp [ha]))
      rw [hskl] at this
      exact (small_of_bound hfe.1.2.2 (hfe.2 fe.b (by simp))).sub this
    have hphc : phG N sk ⟨(glweNeg s2).a, List.zipWith (· + ·) (glweNeg s2).b qb⟩ = phG N sk (glweNeg s2) + cls N qb := by
      simp only [phG]
      rw [cls_zipWith_add _ _ _ (by rw [n1.2.2, b2])]; ring
    have hk : phG N sk ⟨(glweNeg s2).a, List.zipWith (· + ·) (glweNeg s2).b qb⟩ - cls N q = sumMul (s.map (em N)) errs - ν - phG N sk fe := by
      rw [hphc, n2, a3, o6, glweZero_phase, hmaps, hcol, hph]; ring
    rw [hk]
    rw [List.length_map, List.length_range', hkl] at o5
    exact (herr.sub o5).sub hfs

end Spf.Tfhe
