import Verif.Model.Simd
import Mathlib.Tactic.Ring
/-! Proofs for the vector kernels. -/
namespace Spf.Simd
open Spf.Tfhe

theorem zip3_total {α β γ : Type} (f : α → β → γ → α) : ∀ (c : List α) (a : List β) (b : List γ),
    c.length = a.length → c.length = b.length →
    zip3 (fun c a b => some (f c a b)) c a b = some (List.zipWith (fun c ab => f c ab.1 ab.2) c (a.zip b))
  | [], [], [], _, _ => by simp [zip3]
  | c :: cs, a :: as, b :: bs, h1, h2 => by
    have ih := zip3_total f cs as bs (by simpa using h1) (by simpa using h2)
    simp [zip3, ih]

theorem zip3_ab {α β : Type} (f : α → β → α) : ∀ (c a : List α) (b : List β),
    c.length = a.length → c.length = b.length →
    zip3 (fun _ a b => some (f a b)) c a b = some (List.zipWith f a b)
  | [], [], [], _, _ => by simp [zip3]
  | c :: cs, a :: as, b :: bs, h1, h2 => by
    have ih := zip3_ab f cs as bs (by simpa using h1) (by simpa using h2)
    simp [zip3, ih]

theorem zip2_total {α β : Type} (f : α → β → α) : ∀ (c : List α) (a : List β),
    zip2 (fun c a => some (f c a)) c a = some (zipAssign f c a)
  | [], [] => by simp [zip2, zipAssign]
  | [], _ :: _ => by simp [zip2, zipAssign]
  | _ :: _, [] => by simp [zip2, zipAssign]
  | c :: cs, a :: as => by simp [zip2, zipAssign, zip2_total f cs as]

theorem load8_at {α : Type} (ad : Nat) (P C Q : List α) (hC : C.length = 8) (h : (ad + P.length) % 8 = 0) :
    load8 ⟨ad, P ++ (C ++ Q)⟩ P.length = some C := by
  rw [load8, if_pos]
  · simp [← hC]
  · exact ⟨h, by simp; omega⟩

theorem store8_at {α : Type} (ad : Nat) (P C Q v : List α) (hC : C.length = 8) (h : (ad + P.length) % 8 = 0) :
    store8 ⟨ad, P ++ (C ++ Q)⟩ P.length v = some ⟨ad, P ++ (v ++ Q)⟩ := by
  rw [store8, if_pos]
  · have : (P ++ (C ++ Q)).drop (P.length + 8) = Q := by
      rw [← hC, ← List.drop_drop]; simp
    simp [this]
  · exact ⟨h, by simp; omega⟩

theorem split16 {α : Type} (l : List α) (h : 16 ≤ l.length) :
    ∃ x y r, l = x ++ (y ++ r) ∧ x.length = 8 ∧ y.length = 8 :=
  ⟨l.take 8, (l.drop 8).take 8, l.drop 16, by
    conv_lhs => rw [← List.take_append_drop 8 l, ← List.take_append_drop 8 (l.drop 8), List.drop_drop], by simp; omega, by simp; omega⟩

theorem scalarMadBody_spec (ac aa : Nat) (s : BitVec 64) (P A : List (BitVec 64)) (c0 c1 cr a0 a1 ar : List (BitVec 64))
    (hc0 : c0.length = 8) (hc1 : c1.length = 8) (ha0 : a0.length = 8) (ha1 : a1.length = 8) (hl : A.length = P.length)
    (hac : (ac + P.length) % 8 = 0) (haa : (aa + P.length) % 8 = 0) :
    scalarMadBody ⟨aa, A ++ (a0 ++ (a1 ++ ar))⟩ s ⟨ac, P ++ (c0 ++ (c1 ++ cr))⟩ P.length =
      some ⟨ac, P ++ (List.zipWith (· + ·) (c0 ++ c1) ((a0 ++ a1).map (· * s)) ++ cr)⟩ := by
  have e1 := load8_at aa A a0 (a1 ++ ar) ha0 (by rw [hl]; exact haa)
  have e2 := load8_at aa (A ++ a0) a1 ar ha1 (by simp; omega)
  have e3 := load8_at ac P c0 (c1 ++ cr) hc0 hac
  have e4 := load8_at ac (P ++ c0) c1 cr hc1 (by simp; omega)
  have e5 := store8_at ac P c0 (c1 ++ cr) (List.zipWith (· + ·) c0 (a0.map (· * s))) hc0 hac
  have e6 := store8_at ac (P ++ List.zipWith (· + ·) c0 (a0.map (· * s))) c1 cr (List.zipWith (· + ·) c1 (a1.map (· * s))) hc1
    (by simp; omega)
  simp only [List.length_append, hl, ha0, hc0, List.append_assoc, List.length_zipWith, List.length_map, Nat.min_self] at e1 e2 e3 e4 e5 e6
  simp only [scalarMadBody, e1, e2, e3, e4, e5, e6, Option.bind_eq_bind, Option.bind_some, List.map_append]
  rw [List.zipWith_append (by simp [hc0, ha0])]
  simp

theorem scalarMadLoop_spec (ac aa : Nat) (s : BitVec 64) : ∀ (m fuel : Nat) (P A C B : List (BitVec 64)),
    C.length = 16 * m → B.length = C.length → A.length = P.length → C.length ≤ fuel →
    (ac + P.length) % 8 = 0 → (aa + P.length) % 8 = 0 →
    scalarMadLoop ⟨aa, A ++ B⟩ s fuel P.length ⟨ac, P ++ C⟩ =
      some ⟨ac, P ++ List.zipWith (· + ·) C (B.map (· * s))⟩
  | 0, fuel, P, A, C, B, hC, _, _, _, _, _ => by
    have : C = [] := List.length_eq_zero_iff.1 (by omega)
    subst this
    cases fuel with
    | zero => simp [scalarMadLoop]
    | succ f => simp [scalarMadLoop]
  | m + 1, 0, P, A, C, B, hC, _, _, hf, _, _ => by omega
  | m + 1, fuel + 1, P, A, C, B, hC, hB, hA, hf, hac, haa => by
    obtain ⟨c0, c1, cr, rfl, hc0, hc1⟩ := split16 C (by omega)
    obtain ⟨a0, a1, ar, rfl, ha0, ha1⟩ := split16 B (by omega)
    simp only [List.length_append] at hC hB hf
    rw [scalarMadLoop, if_pos (by simp; omega), scalarMadBody_spec ac aa s P A c0 c1 cr a0 a1 ar hc0 hc1 ha0 ha1 hA hac haa]
    have ih := scalarMadLoop_spec ac aa s m fuel (P ++ List.zipWith (· + ·) (c0 ++ c1) ((a0 ++ a1).map (· * s)))
      (A ++ (a0 ++ a1)) cr ar (by omega) (by omega) (by simp; omega) (by omega) (by simp; omega) (by simp; omega)
    have hlen : (P ++ List.zipWith (· + ·) (c0 ++ c1) ((a0 ++ a1).map (· * s))).length = P.length + 16 := by simp; omega
    rw [hlen] at ih
    simp only [List.append_assoc] at ih
    simp only [Option.bind_some, ih]
    have hs : c0 ++ (c1 ++ cr) = (c0 ++ c1) ++ cr := by simp
    have hs' : a0 ++ (a1 ++ ar) = (a0 ++ a1) ++ ar := by simp
    rw [hs, hs', List.map_append (l₁ := a0 ++ a1), List.zipWith_append (by simp; omega)]

theorem load8_none {α : Type} (s : Slice α) (i : Nat) (h : s.data.length < i + 8) : load8 s i = none := by
  rw [load8, if_neg]; omega

theorem store8_length {α : Type} {s t : Slice α} {i : Nat} {v : List α} (hv : v.length = 8) (h : store8 s i v = some t) :
    t.data.length = s.data.length := by
  rw [store8] at h
  split at h
  · cases h; simp; omega
  · cases h

theorem load8_length {α : Type} {s : Slice α} {i : Nat} {v : List α} (h : load8 s i = some v) : v.length = 8 := by
  rw [load8] at h
  split at h
  · cases h; simp; omega
  · cases h

theorem scalarMadBody_length {a c t : Slice (BitVec 64)} {s : BitVec 64} {i : Nat} (h : scalarMadBody a s c i = some t) :
    t.data.length = c.data.length ∧ i + 16 ≤ c.data.length := by
  simp only [scalarMadBody, Option.bind_eq_bind, Option.bind_eq_some_iff] at h
  obtain ⟨z0, h0, z1, h1, z2, h2, z3, h3, c1, h4, h5⟩ := h
  have e := store8_length (by simp [load8_length h0, load8_length h2]) h4
  have e' := store8_length (by simp [load8_length h1, load8_length h3]) h5
  refine ⟨by omega, ?_⟩
  by_contra hc
  rw [load8_none _ _ (by omega)] at h3
  cases h3

theorem scalarMadLoop_ub (a : Slice (BitVec 64)) (s : BitVec 64) : ∀ (fuel i : Nat) (c : Slice (BitVec 64)),
    c.data.length < i + fuel → i < c.data.length → (c.data.length - i) % 16 ≠ 0 → scalarMadLoop a s fuel i c = none
  | 0, i, c, hf, hi, _ => by omega
  | fuel + 1, i, c, hf, hi, hm => by
    rw [scalarMadLoop, if_pos hi]
    cases h : scalarMadBody a s c i with
    | none => rfl
    | some t =>
      obtain ⟨e1, e2⟩ := scalarMadBody_length h
      exact scalarMadLoop_ub a s fuel (i + 16) t (by omega) (by omega) (by omega)

section Complex
variable {R : Type} [CommRing R]

theorem flat_length : ∀ l : List (Cx R), (flat l).length = 2 * l.length
  | [] => rfl
  | z :: l => by simp [flat, flat_length l]; omega

theorem flat_append : ∀ l r : List (Cx R), flat (l ++ r) = flat l ++ flat r
  | [], _ => rfl
  | z :: l, r => by simp [flat, flat_append l r]

theorem unflat_flat : ∀ l : List (Cx R), unflat (flat l) = l
  | [] => rfl
  | z :: l => by simp [flat, unflat, unflat_flat l]

theorem split8 {α : Type} (l : List α) (h : 8 ≤ l.length) :
    ∃ x0 x1 x2 x3 x4 x5 x6 x7 r, l = [x0, x1, x2, x3] ++ ([x4, x5, x6, x7] ++ r) := by
  match l, h with
  | x0 :: x1 :: x2 :: x3 :: x4 :: x5 :: x6 :: x7 :: r, _ => exact ⟨x0, x1, x2, x3, x4, x5, x6, x7, r, rfl⟩

/-- what scalar multiply-add does to a list -/
def madList (c a b : List (Cx R)) : List (Cx R) := List.zipWith (fun c ab => cxMad c ab.1 ab.2) c (a.zip b)

theorem complexMadBody_spec (ac aa ab : Nat) (P A B : List R) (c0 c1 c2 c3 c4 c5 c6 c7 : Cx R) (a0 a1 a2 a3 a4 a5 a6 a7 : Cx R)
    (b0 b1 b2 b3 b4 b5 b6 b7 : Cx R) (cr ar br : List R) (hA : A.length = P.length) (hB : B.length = P.length)
    (hac : (ac + P.length) % 8 = 0) (haa : (aa + P.length) % 8 = 0) (hab : (ab + P.length) % 8 = 0) :
    complexMadBody ⟨aa, A ++ (flat [a0, a1, a2, a3] ++ (flat [a4, a5, a6, a7] ++ ar))⟩
      ⟨ab, B ++ (flat [b0, b1, b2, b3] ++ (flat [b4, b5, b6, b7] ++ br))⟩
      ⟨ac, P ++ (flat [c0, c1, c2, c3] ++ (flat [c4, c5, c6, c7] ++ cr))⟩ P.length =
    some ⟨ac, P ++ (flat (madList [c0, c1, c2, c3, c4, c5, c6, c7] [a0, a1, a2, a3, a4, a5, a6, a7]
      [b0, b1, b2, b3, b4, b5, b6, b7]) ++ cr)⟩ := by
  have e1 := load8_at aa A (flat [a0, a1, a2, a3]) (flat [a4, a5, a6, a7] ++ ar) rfl (by rw [hA]; exact haa)
  have e2 := load8_at aa (A ++ flat [a0, a1, a2, a3]) (flat [a4, a5, a6, a7]) ar rfl (by simp [flat]; omega)
  have e3 := load8_at ab B (flat [b0, b1, b2, b3]) (flat [b4, b5, b6, b7] ++ br) rfl (by rw [hB]; exact hab)
  have e4 := load8_at ab (B ++ flat [b0, b1, b2, b3]) (flat [b4, b5, b6, b7]) br rfl (by simp [flat]; omega)
  have e5 := load8_at ac P (flat [c0, c1, c2, c3]) (flat [c4, c5, c6, c7] ++ cr) rfl hac
  have e6 := load8_at ac (P ++ flat [c0, c1, c2, c3]) (flat [c4, c5, c6, c7]) cr rfl (by simp [flat]; omega)
  have s1 := fun v => store8_at ac P (flat [c0, c1, c2, c3]) (flat [c4, c5, c6, c7] ++ cr) v rfl hac
  have s2 := fun (v w : List R) (hv : v.length = 8) =>
    store8_at ac (P ++ v) (flat [c4, c5, c6, c7]) cr w rfl (by simp [hv]; omega)
  have hl : ∀ z0 z1 z2 z3 : Cx R, (flat [z0, z1, z2, z3]).length = 8 := fun _ _ _ _ => rfl
  simp only [List.length_append, hA, hB, List.append_assoc, hl] at e1 e2 e3 e4 e5 e6 s1 s2
  simp only [complexMadBody, e1, e2, e3, e4, e5, e6, s1, Option.bind_eq_bind, Option.bind_some]
  rw [show ∀ v : List R, ∀ h : v.length = 8, P.length + 8 = P.length + v.length from fun v h => by rw [h]]
  · rw [s2]
    · simp [vshufpd, flat, madList, cxMad, vfmadd, vfnmadd]
      refine ⟨?_, ?_, ?_, ?_, ?_, ?_, ?_, ?_, ?_, ?_, ?_, ?_, ?_, ?_, ?_, ?_⟩ <;> ring
    · rfl
  · rfl

theorem complexMadLoop_spec (ac aa ab : Nat) : ∀ (m fuel : Nat) (P A B : List R) (C X Y : List (Cx R)),
    C.length = 8 * m → X.length = C.length → Y.length = C.length → A.length = P.length → B.length = P.length →
    2 * C.length ≤ fuel → (ac + P.length) % 8 = 0 → (aa + P.length) % 8 = 0 → (ab + P.length) % 8 = 0 →
    complexMadLoop ⟨aa, A ++ flat X⟩ ⟨ab, B ++ flat Y⟩ fuel P.length ⟨ac, P ++ flat C⟩ =
      some ⟨ac, P ++ flat (madList C X Y)⟩
  | 0, fuel, P, A, B, C, X, Y, hC, _, _, _, _, _, _, _, _ => by
    have : C = [] := List.length_eq_zero_iff.1 (by omega)
    subst this
    cases fuel with
    | zero => simp [complexMadLoop, madList, flat]
    | succ f => simp [complexMadLoop, madList, flat]
  | m + 1, 0, P, A, B, C, X, Y, hC, _, _, _, _, hf, _, _, _ => by omega
  | m + 1, fuel + 1, P, A, B, C, X, Y, hC, hX, hY, hA, hB, hf, hac, haa, hab => by
    obtain ⟨c0, c1, c2, c3, c4, c5, c6, c7, cr, rfl⟩ := split8 C (by omega)
    obtain ⟨a0, a1, a2, a3, a4, a5, a6, a7, ar, rfl⟩ := split8 X (by omega)
    obtain ⟨b0, b1, b2, b3, b4, b5, b6, b7, br, rfl⟩ := split8 Y (by omega)
    simp only [List.length_append, List.length_cons, List.length_nil] at hC hX hY hf
    rw [complexMadLoop, if_pos (by simp [flat_length])]
    simp only [flat_append]
    rw [complexMadBody_spec ac aa ab P A B c0 c1 c2 c3 c4 c5 c6 c7 a0 a1 a2 a3 a4 a5 a6 a7 b0 b1 b2 b3 b4 b5 b6 b7 _ _ _ hA hB
      hac haa hab]
    have ih := complexMadLoop_spec ac aa ab m fuel
      (P ++ flat (madList [c0, c1, c2, c3, c4, c5, c6, c7] [a0, a1, a2, a3, a4, a5, a6, a7] [b0, b1, b2, b3, b4, b5, b6, b7]))
      (A ++ flat [a0, a1, a2, a3, a4, a5, a6, a7]) (B ++ flat [b0, b1, b2, b3, b4, b5, b6, b7]) cr ar br
      (by omega) (by omega) (by omega) (by simp [flat_length, madList, hA]) (by simp [flat_length, madList, hB])
      (by omega) (by simp [flat_length, madList]; omega) (by simp [flat_length, madList]; omega)
      (by simp [flat_length, madList]; omega)
    have hlen : (P ++ flat (madList [c0, c1, c2, c3, c4, c5, c6, c7] [a0, a1, a2, a3, a4, a5, a6, a7]
        [b0, b1, b2, b3, b4, b5, b6, b7])).length = P.length + 16 := by simp [flat_length, madList]
    rw [hlen] at ih
    have e : ∀ z0 z1 z2 z3 z4 z5 z6 z7 : Cx R, ∀ l : List R, flat [z0, z1, z2, z3] ++ (flat [z4, z5, z6, z7] ++ l) =
        flat [z0, z1, z2, z3, z4, z5, z6, z7] ++ l := fun _ _ _ _ _ _ _ _ _ => rfl
    simp only [List.append_assoc] at ih
    simp only [Option.bind_some, e, ih]
    rw [← flat_append]
    rfl

end Complex
end Spf.Simd
