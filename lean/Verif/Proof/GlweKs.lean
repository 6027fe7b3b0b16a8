import Verif.Model.GlweKs
import Verif.Props.Ggsw
import Verif.Proof.PowK
import Verif.Props.Poly
/-! GLWE keyswitching and the homomorphic trace, on phases. -/
namespace Spf.Tfhe
open Spf.Spec Spf.Props

variable {W N : Nat}

theorem scalarMul_zero (s : List (BitVec W)) (f : BitVec W) (h : s.length = N) :
    polyScalarMul (List.replicate N 0) s f = s.map fun x => x * f := by
  rw [polyScalarMul, zipAssign_eq _ _ _ (by simp [h])]
  subst h
  induction s with
  | nil => rfl
  | cons a s ih => rw [List.length_cons, List.replicate_succ, List.zipWith_cons_cons, ih, List.map_cons]

theorem glweKskRow_eq (log : Nat) (s : List (BitVec W)) (hs : s.length = N) (sk : List (List (BitVec W))) (masks : Nat → List (List (BitVec W)))
    (noise : Nat → Option (List (BitVec W))) : ∀ (j : Nat) (bufs : List (Glwe (BitVec W))),
    glweKskRow N log s sk masks noise j bufs = glevRows N log s sk masks noise j bufs
  | _, [] => rfl
  | j, b :: bufs => by
    rw [glweKskRow, glevRows, scaleMsg, glweKskRow_eq log s hs sk masks noise (j + 1) bufs]
    cases gadgetFactor W log j with
    | none => rfl
    | some f =>
      simp only [scalarMul_zero s f hs]
      cases glweEncrypt N b (s.map fun x => x * f) sk (masks j) (noise j) with
      | none => rfl
      | some ct => cases glevRows N log s sk masks noise (j + 1) bufs <;> rfl

theorem glweKskRows_spec {n k E : Nat} (hW : W ≤ 64) (r : Radix) (hl : 0 < r.log) (hlc : r.log * r.count ≤ W) (old sk : List (List (BitVec W)))
    (hold : KeyFor old k (2 ^ n)) (hsk : KeyFor sk k (2 ^ n)) (masks : Nat → Nat → List (List (BitVec W)))
    (noise : Nat → Nat → Option (List Int)) (hma : ∀ i j, KeyFor (masks i j) k (2 ^ n)) (hno : ∀ i j, NoiseOk (2 ^ n) E (noise i j)) :
    ∀ (i : Nat) (bufs : List (List (Glwe (BitVec W)))), i + bufs.length = k → (∀ row ∈ bufs, row.length = r.count ∧ ∀ b ∈ row, FreshBuf k (2 ^ n) b) →
    ∃ g, glweKskRows (2 ^ n) r.log old sk masks (fun i j => (noise i j).map fun l => l.map (BitVec.ofInt W)) i bufs = some g ∧
      List.Forall₂ (GlevOk k (2 ^ n) r.log r.count E sk) ((old.drop i).map (cls (2 ^ n))) g
  | i, [], h, _ => ⟨[], rfl, by
      rw [List.drop_eq_nil_of_le (by rw [hold.1]; simp at h; omega)]; exact .nil⟩
  | i, buf :: bufs, h, hb => by
    obtain ⟨b1, b2⟩ := hb buf (by simp)
    have hik : i < old.length := by rw [hold.1]; simp at h; omega
    obtain ⟨g, g1, g2⟩ := glweKskRows_spec hW r hl hlc old sk hold hsk masks noise hma hno (i + 1) bufs (by simp at h; omega)
      fun z hz => hb z (by simp [hz])
    have hs : (old[i]).length = 2 ^ n := hold.2 _ (List.getElem_mem _)
    obtain ⟨row, r1, r2, r3, r4⟩ := glevRows_spec hW hl hlc (old[i]) hs sk hsk (masks i) (noise i) (hma i) (hno i) 0 buf (by omega) b2
    refine ⟨row :: g, ?_, ?_⟩
    · rw [glweKskRows, List.getElem?_eq_getElem hik]
      simp only [glweKskRow_eq r.log _ hs, r1, g1]
    · rw [List.drop_eq_getElem_cons hik, List.map_cons]
      refine .cons ⟨by omega, r3, fun t ht => ?_⟩ g2
      obtain ⟨e, h5, h6⟩ := r4 t ht
      exact ⟨e, h5, by rw [h6, Nat.zero_add]⟩

/-- the error of one GLWE keyswitch: rounding of the masks, noise of the key, error of the inverse transform -/
def glweKsBound (W k N : Nat) (r : Radix) (S S' E F : Nat) : Nat :=
  k * (N * (S * 2 ^ (W - r.log * r.count - 1))) + k * (r.count * (N * (2 ^ (r.log - 1) * E))) + (F + k * (N * (F * S')))

theorem trivial_phase {k : Nat} (sk : List (List (BitVec W))) (b : List (BitVec W)) (hb : b.length = N) :
    ∃ t, glweTrivial (glweZero k N) b = some t ∧ t.valid k N ∧ phG N sk t = cls N b := by
  have h0 : (List.replicate k (List.replicate N (0 : BitVec W))).map (fun p => p.map fun _ => (0 : BitVec W)) = List.replicate k (List.replicate N 0) := by
    simp
  refine ⟨⟨List.replicate k (List.replicate N 0), b⟩, ?_, ⟨by simp, ?_, hb⟩, ?_⟩
  · rw [glweTrivial, if_pos (by simp [glweZero, hb])]
    simp only [glweZero, h0]
  · intro p hp; rw [List.eq_of_mem_replicate hp]; simp
  · simp only [phG, dotC_zeros, sub_zero]

theorem glweKeyswitchFft_spec {k E S S' F : Nat} {r : Radix} (hN : isPow2 N = true) (hl : 0 < r.log) (hc : 0 < r.count) (hlt : r.log * r.count < W)
    (old sk : List (List (BitVec W))) (hold : KeyFor old k N) (hskl : sk.length = k) (hS : ∀ s ∈ old, Small N S (cls N s))
    (hS' : ∀ s ∈ sk, Small N S' (cls N s)) (ksk : List (List (Glwe (BitVec W))))
    (hk : List.Forall₂ (GlevOk k N r.log r.count E sk) (old.map (cls N)) ksk) (fe ct : Glwe (BitVec W)) (hct : ct.valid k N) (hfe : fe.valid k N)
    (hFa : ∀ a ∈ fe.a, Small N F (cls N a)) (hFb : Small N F (cls N fe.b)) :
    ∃ out, glweKeyswitchFft k N r fe ct ksk = some out ∧ out.valid k N ∧
      Small N (glweKsBound W k N r S S' E F) (phG N sk out - phG N old ct) := by
  obtain ⟨sum, errs, ν, o1, o2, o3, o4, o5, o6⟩ := ggswMadLoop_spec hN hl hc hlt sk ct.a (old.map (cls N)) ksk (glweZero k N)
    (by simp [hct.1, hold.1]) hct.2.1 hk (glweZero_valid k N)
  obtain ⟨s2, p1, p2, p3⟩ := add_phase sum fe sk o2 hfe
  obtain ⟨t, t1, t2, t3⟩ := trivial_phase (k := k) sk ct.b hct.2.2
  obtain ⟨out, q1, q2, q3⟩ := sub_phase t s2 sk t2 p2
  refine ⟨out, by rw [glweKeyswitchFft, o1]; simp only [p1, t1]; exact q1, q2, ?_⟩
  have hneg : (old.map fun s => -((-1 : Nega (BitVec W) N) * cls N s)) = old.map (cls N) := by simp
  obtain ⟨ρ, h1, h2⟩ := sumMul_err (-1) old errs (by rw [o3, hct.1, hold.1]) hS o4
  have h3 := sumMul_keys (-1 : Nega (BitVec W) N) old ct.a (by rw [hct.1, hold.1])
  rw [hneg] at h2 h3
  rw [hold.1] at h1
  rw [hct.1] at o5
  have hf : Small N (F + k * (N * (F * S'))) (phG N sk fe) := by
    have := fe_small (F := F) (S := S') sk fe.a (by rw [hfe.1, hskl]) hS' hFa
    rw [hskl] at this
    exact hFb.sub this
  have key : phG N sk out - phG N old ct = ρ - ν - phG N sk fe := by
    rw [q3, p3, o6, t3, glweZero_phase, h2, h3]
    simp only [phG]
    ring
  rw [key]
  exact (h1.sub o5).sub hf

/-! ### the automorphism `X -> X^k` -/

theorem xk_root (N k : Nat) (hk : k % 2 = 1) : Polynomial.eval₂ (AdjoinRoot.of (Polynomial.X ^ N + 1 : Polynomial (BitVec W))) (xcls N ^ k)
    (Polynomial.X ^ N + 1 : Polynomial (BitVec W)) = 0 := by
  rw [Polynomial.eval₂_add, Polynomial.eval₂_pow, Polynomial.eval₂_X, Polynomial.eval₂_one, ← pow_mul, Nat.mul_comm, pow_mul, xcls_pow,
    Odd.neg_one_pow (Nat.odd_iff.mpr hk)]
  ring

/-- `X -> X^k` on the negacyclic ring (identity for even `k`, where it is not defined) -/
noncomputable def sig (N k : Nat) : Nega (BitVec W) N →+* Nega (BitVec W) N :=
  if hk : k % 2 = 1 then AdjoinRoot.lift (AdjoinRoot.of _) (xcls N ^ k) (xk_root N k hk) else RingHom.id _

theorem sig_x {k : Nat} (hk : k % 2 = 1) : sig (W := W) N k (xcls N) = xcls N ^ k := by
  rw [sig, dif_pos hk]; exact AdjoinRoot.lift_root _

theorem sig_of {k : Nat} (hk : k % 2 = 1) (c : BitVec W) : sig (W := W) N k (AdjoinRoot.of _ c) = AdjoinRoot.of _ c := by
  rw [sig, dif_pos hk]; exact AdjoinRoot.lift_of _

theorem sig_cls {k : Nat} (hk : k % 2 = 1) (p : List (BitVec W)) :
    sig N k (cls N p) = AdjoinRoot.mk _ ((toPoly p).comp (Polynomial.X ^ k)) := by
  rw [mk_comp_sum, cls_eq_sum, map_sum]
  apply Finset.sum_congr rfl
  intro i _
  rw [map_mul, map_pow, sig_x hk, sig_of hk, ← pow_mul, Nat.mul_comm]

theorem powKLoop_mem {R : Type} [CommRing R] (N k : Nat) : ∀ (p : List R) (i : Nat) (pk : List R), ∀ y ∈ powKLoop N k p i pk,
    y ∈ pk ∨ ∃ c ∈ p, y = c ∨ y = -c
  | [], _, _, y, h => Or.inl h
  | c :: p, i, pk, y, h => by
    rw [powKLoop] at h
    rcases powKLoop_mem N k p (i + 1) _ y h with h | ⟨d, hd, h⟩
    · rcases List.mem_or_eq_of_mem_set h with h | h
      · exact Or.inl h
      · refine Or.inr ⟨c, by simp, ?_⟩
        rw [h]
        by_cases hs : i * k / N % 2 = 0
        · left; simp [hs]
        · right; simp [hs]
    · exact Or.inr ⟨d, by simp [hd], h⟩

theorem small_of_forall {B : Nat} : ∀ (q : List (BitVec W)), (∀ y ∈ q, ∃ e : Int, e.natAbs ≤ B ∧ y = BitVec.ofInt W e) →
    ∃ l : List Int, l.length = q.length ∧ (∀ e ∈ l, e.natAbs ≤ B) ∧ q = l.map (BitVec.ofInt W)
  | [], _ => ⟨[], rfl, by simp, rfl⟩
  | y :: q, h => by
    obtain ⟨e, h1, h2⟩ := h y (by simp)
    obtain ⟨l, l1, l2, l3⟩ := small_of_forall q fun z hz => h z (by simp [hz])
    exact ⟨e :: l, by simp [l1], by simpa using ⟨h1, l2⟩, by rw [List.map_cons, ← h2, ← l3]⟩

theorem Small.sig {n B k : Nat} (hk : k % 2 = 1) {x : Nega (BitVec W) (2 ^ n)} (hx : Small (2 ^ n) B x) : Small (2 ^ n) B (sig (2 ^ n) k x) := by
  obtain ⟨l, l1, l2, rfl⟩ := hx
  obtain ⟨q, q1, q2, q3⟩ := C48_pow_k n (List.replicate (2 ^ n) 0) (l.map (BitVec.ofInt W)) k hk (by simp [l1]) (by simp)
  rw [sig_cls hk, ← q3]
  have hmem : ∀ y ∈ q, ∃ e : Int, e.natAbs ≤ B ∧ y = BitVec.ofInt W e := by
    intro y hy
    rw [polyPowK] at q1
    split at q1
    · obtain rfl := Option.some.inj q1
      rcases powKLoop_mem _ _ _ _ _ y hy with h | ⟨c, hc, h⟩
      · exact ⟨0, by simp, by rw [List.eq_of_mem_replicate h]; rfl⟩
      · obtain ⟨e, he, rfl⟩ := List.mem_map.1 hc
        rcases h with rfl | rfl
        · exact ⟨e, l2 e he, rfl⟩
        · exact ⟨-e, by rw [Int.natAbs_neg]; exact l2 e he, by rw [BitVec.ofInt_neg]⟩
    · simp at q1
  obtain ⟨l', a, b, c⟩ := small_of_forall q hmem
  exact ⟨l', by rw [a, q2], b, by rw [← c]⟩

theorem powKs_spec {n k : Nat} (hk : k % 2 = 1) : ∀ (bufs as : List (List (BitVec W))), bufs.length = as.length → AllLen (2 ^ n) bufs → AllLen (2 ^ n) as →
    ∃ qs, powKs k bufs as = some qs ∧ List.Forall₂ (fun a q => q.length = 2 ^ n ∧ cls (2 ^ n) q = sig (2 ^ n) k (cls (2 ^ n) a)) as qs
  | [], [], _, _, _ => ⟨[], rfl, .nil⟩
  | [], _ :: _, h, _, _ => by simp at h
  | _ :: _, [], h, _, _ => by simp at h
  | b :: bufs, a :: as, h, hb, ha => by
    obtain ⟨qs, h1, h2⟩ := powKs_spec hk bufs as (by simpa using h) hb.cons.2 ha.cons.2
    obtain ⟨q, q1, q2, q3⟩ := C48_pow_k n b a k hk ha.cons.1 hb.cons.1
    refine ⟨q :: qs, by rw [powKs, q1]; simp only [h1], .cons ⟨q2, by rw [q3, sig_cls hk]⟩ h2⟩

theorem forall2_dot {n k : Nat} {as qs sk skk : List (List (BitVec W))} (hk : k % 2 = 1)
    (h : List.Forall₂ (fun a q => q.length = 2 ^ n ∧ cls (2 ^ n) q = sig (2 ^ n) k (cls (2 ^ n) a)) as qs)
    (h' : List.Forall₂ (fun a q => q.length = 2 ^ n ∧ cls (2 ^ n) q = sig (2 ^ n) k (cls (2 ^ n) a)) sk skk) :
    dotC (2 ^ n) qs skk = sig (2 ^ n) k (dotC (2 ^ n) as sk) := by
  induction h generalizing sk skk with
  | nil => simp [dotC]
  | cons h1 _ ih =>
    cases h' with
    | nil => simp [dotC]
    | cons g1 g2 => rw [dotC, dotC, ih g2, h1.2, g1.2, map_add, map_mul]

theorem glwePowK_spec {n k d : Nat} (hk : k % 2 = 1) (scratch ct : Glwe (BitVec W)) (hs : scratch.valid d (2 ^ n)) (hct : ct.valid d (2 ^ n)) :
    ∃ out, glwePowK k scratch ct = some out ∧ out.valid d (2 ^ n) ∧
      ∀ sk skk, List.Forall₂ (fun a q => q.length = 2 ^ n ∧ cls (2 ^ n) q = sig (2 ^ n) k (cls (2 ^ n) a)) sk skk →
        phG (2 ^ n) skk out = sig (2 ^ n) k (phG (2 ^ n) sk ct) := by
  obtain ⟨qs, h1, h2⟩ := powKs_spec hk scratch.a ct.a (by rw [hs.1, hct.1]) hs.2.1 hct.2.1
  obtain ⟨q, q1, q2, q3⟩ := C48_pow_k n scratch.b ct.b k hk hct.2.2 hs.2.2
  refine ⟨⟨qs, q⟩, by rw [glwePowK, h1, q1], ⟨by simp only; rw [← h2.length_eq, hct.1], ?_, q2⟩, fun sk skk hh => ?_⟩
  · intro p hp
    obtain ⟨i, hi, rfl⟩ := List.getElem_of_mem hp
    exact ((List.forall₂_iff_get.1 h2).2 i (by rw [h2.length_eq]; exact hi) hi).1
  · simp only [phG]
    rw [forall2_dot hk h2 hh, q3, map_sub, sig_cls hk]

end Spf.Tfhe
