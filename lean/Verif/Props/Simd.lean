import Verif.Proof.Simd
/-! C90: the vector kernels compute the same function on every platform they are dispatched to. -/
namespace Spf.Props
open Spf.Simd Spf.Tfhe

/-- The CPU has the features that the AVX2 kernels of the source enable. -/
def Avx2Ok (p : Platform) : Prop := ∀ ft, p.x86 = some ft → ft.avx2 = true ∧ ft.fma = true

/-- A slice whose address is a multiple of 64 bytes. -/
def Aligned {α : Type} (s : Slice α) : Prop := s.addr % 8 = 0

/-- **C90, addition (partial: release builds).** On every platform `polynomial_add` gives the coefficientwise sums modulo
`2^64`. Missing: builds with overflow checks, where it may panic (`C90_overflow_violated`). -/
theorem C90_add_partial (p : Platform) (hp : p.checks = false) (c a b : List (BitVec 64)) (ha : a.length = c.length)
    (hb : b.length = c.length) : polynomialAdd p c a b = some (List.zipWith (· + ·) a b) := by
  have hs : scalarAdd c a b = some (List.zipWith (· + ·) a b) := zip3_ab (· + ·) c a b ha.symm hb.symm
  rw [polynomialAdd, if_pos ⟨ha.symm, hb.symm⟩, vectorAdd]
  cases h : p.x86 with
  | none => exact hs
  | some ft =>
    simp only
    split
    · rename_i h2
      rw [avx2Add, if_pos ⟨h2.2, h2.1⟩, hp]
      have : (fun (_ : BitVec 64) a b => plainAdd false a b) = fun _ a b => some (a + b) := by
        funext _ a b; simp [plainAdd]
      rw [this]; exact hs
    · exact hs

/-- **C90, subtraction (partial: release builds, and on x86-64 a CPU with AVX2 and FMA).** `polynomial_sub` gives the
coefficientwise differences modulo `2^64`. Missing: CPUs without AVX2, where it adds (`C90_sub_violated`). -/
theorem C90_sub_partial (p : Platform) (hp : p.checks = false) (hf : Avx2Ok p) (c a b : List (BitVec 64))
    (ha : a.length = c.length) (hb : b.length = c.length) : polynomialSub p c a b = some (List.zipWith (· - ·) a b) := by
  have hs : scalarSub c a b = some (List.zipWith (· - ·) a b) := zip3_ab (· - ·) c a b ha.symm hb.symm
  rw [polynomialSub, if_pos ⟨ha.symm, hb.symm⟩, vectorSub]
  cases h : p.x86 with
  | none => exact hs
  | some ft =>
    obtain ⟨h1, h2⟩ := hf ft h
    simp only [h1, if_true]
    rw [avx2Sub, if_pos ⟨h1, h2⟩, hp]
    have : (fun (_ : BitVec 64) a b => plainSub false a b) = fun _ a b => some (a - b) := by
      funext _ a b; simp [plainSub]
    rw [this]; exact hs

theorem zipAssign_mad (s : BitVec 64) : ∀ c a : List (BitVec 64), a.length = c.length →
    zipAssign (fun c a => a * s + c) c a = List.zipWith (fun c a => c + a * s) c a
  | [], [], _ => rfl
  | c :: cs, a :: as, h => by
    simp only [zipAssign, List.zipWith_cons_cons, BitVec.add_comm (a * s), zipAssign_mad s cs as (by simpa using h)]

theorem zipWith_mad (s : BitVec 64) : ∀ c a : List (BitVec 64),
    List.zipWith (· + ·) c (a.map (· * s)) = List.zipWith (fun c a => c + a * s) c a
  | [], _ => by simp
  | _ :: _, [] => by simp
  | c :: cs, a :: as => by simp [zipWith_mad s cs as]

/-- **C90, multiply-add by a small scalar (partial: release builds; with AVX-512, aligned slices whose length is a multiple of
16, and AVX512DQ).** `polynomial_small_scalar_mad` adds `a * s` to `c`, coefficientwise modulo `2^64`. Missing: other
lengths (`C90_scalar_mad_violated`), AVX-512 without DQ (`C90_scalar_mad_dq_violated`), overflow checks. -/
theorem C90_scalar_mad_partial (p : Platform) (hp : p.checks = false) (c a : Slice (BitVec 64)) (s : BitVec 64)
    (ha : a.data.length = c.data.length)
    (h512 : ∀ ft, p.x86 = some ft → ft.avx512f = true → ft.avx512dq = true ∧ Aligned c ∧ Aligned a ∧ c.data.length % 16 = 0) :
    polynomialSmallScalarMad p c a s = some (List.zipWith (fun c a => c + a * s) c.data a.data) := by
  have hs : scalarScalarMad false c.data a.data s = some (List.zipWith (fun c a => c + a * s) c.data a.data) := by
    have : (fun c a => (plainMul false a s).bind fun m => plainAdd false m c) = fun c a => some (a * s + c) := by
      funext c a; simp [plainMul, plainAdd]
    rw [scalarScalarMad, this, zip2_total, zipAssign_mad s _ _ ha]
  rw [polynomialSmallScalarMad, vectorScalarMad, hp]
  cases h : p.x86 with
  | none => exact hs
  | some ft =>
    simp only
    split
    · rename_i h2
      obtain ⟨h3, h4, h5, h6⟩ := h512 ft h h2
      rw [avx512ScalarMad]
      split
      · rename_i h0
        rw [List.length_eq_zero_iff.1 h0]; rfl
      · have := scalarMadLoop_spec c.addr a.addr s (c.data.length / 16) c.data.length [] [] c.data a.data (by omega) ha rfl
          le_rfl (by simpa [Aligned] using h4) (by simpa [Aligned] using h5)
        simp only [List.nil_append, List.length_nil] at this
        rw [this, Option.map_some, zipWith_mad]
    · exact hs

/-- **C90, complex multiply-add.** On every platform, whatever vector unit is dispatched to, `multiply_add` in the frequency
domain adds the pointwise complex products, for aligned slices whose length is a multiple of 8 (partial: other lengths panic
on x86-64, `C90_complex_mad_violated`; exact arithmetic). -/
theorem C90_complex_mad_partial {R : Type} [CommRing R] (p : Platform) (c a b : Slice (Cx R)) (ha : a.data.length = c.data.length)
    (hb : b.data.length = c.data.length) (hc : Aligned c) (haa : Aligned a) (hab : Aligned b) (h8 : c.data.length % 8 = 0) :
    complexMad p c a b = some (List.zipWith (fun c (ab : Cx R × Cx R) =>
      (c.1 + (ab.1.1 * ab.2.1 - ab.1.2 * ab.2.2), c.2 + (ab.1.1 * ab.2.2 + ab.1.2 * ab.2.1))) c.data (a.data.zip b.data)) := by
  have hs : scalarComplexMad c.data a.data b.data = some (madList c.data a.data b.data) :=
    zip3_total cxMad c.data a.data b.data ha.symm hb.symm
  change complexMad p c a b = some (madList c.data a.data b.data)
  rw [complexMad]
  cases h : p.x86 with
  | none => exact hs
  | some ft =>
    simp only
    rw [if_pos ⟨hc, hab, haa, ha.symm, by omega, by omega⟩]
    split
    · have := complexMadLoop_spec c.addr a.addr b.addr (c.data.length / 8) (flat c.data).length [] [] [] c.data a.data b.data
        (by omega) ha hb rfl rfl (by rw [flat_length]) (by simpa [Aligned] using hc) (by simpa [Aligned] using haa) (by simpa [Aligned] using hab)
      simp only [List.nil_append, List.length_nil] at this
      rw [avx512ComplexMad, this, Option.map_some, unflat_flat]
    · exact hs

/-- **C90 (partial).** Two platforms that satisfy the conditions above give the same results. -/
theorem C90_same_partial (p q : Platform) (hp : p.checks = false) (hq : q.checks = false) (hp2 : Avx2Ok p) (hq2 : Avx2Ok q)
    (c a b : List (BitVec 64)) (ha : a.length = c.length) (hb : b.length = c.length) :
    polynomialAdd p c a b = polynomialAdd q c a b ∧ polynomialSub p c a b = polynomialSub q c a b :=
  ⟨by rw [C90_add_partial p hp c a b ha hb, C90_add_partial q hq c a b ha hb],
   by rw [C90_sub_partial p hp hp2 c a b ha hb, C90_sub_partial q hq hq2 c a b ha hb]⟩

/-- a CPU with AVX2, FMA and AVX-512 (F and DQ) -/
def exServer : Platform := ⟨some ⟨true, true, true, true⟩, false⟩
/-- an x86-64 CPU without AVX2 -/
def exOld : Platform := ⟨some ⟨false, false, false, false⟩, false⟩
/-- not x86-64 -/
def exArm : Platform := ⟨none, false⟩

example : Avx2Ok exServer := by intro ft h; cases h; exact ⟨rfl, rfl⟩
example : polynomialSub exServer [0] [5] [7] = some [-2] := by decide +kernel
example : polynomialAdd exOld [0, 0] [5, -1] [7, 3] = some [12, 2] := by decide +kernel
/-- the hypotheses of `C90_scalar_mad_partial` are met with AVX-512 and 16 coefficients -/
example : polynomialSmallScalarMad exServer ⟨0, List.replicate 16 1⟩ ⟨8, List.replicate 16 2⟩ 3 = some (List.replicate 16 7) :=
  C90_scalar_mad_partial exServer rfl _ _ 3 rfl (by
    intro ft h _; cases h; exact ⟨rfl, rfl, rfl, rfl⟩)
/-- the AVX-512 kernel on 8 complex numbers: `1 + (1 + i) * (2 + 3 i) = 0 + 5 i` -/
example : complexMad exServer ⟨0, List.replicate 8 ((1, 0) : Cx Int)⟩ ⟨16, List.replicate 8 (1, 1)⟩ ⟨32, List.replicate 8 (2, 3)⟩ =
    some (List.replicate 8 (0, 5)) := by decide +kernel

/-- **C90, violated: subtraction without AVX2.** On every x86-64 CPU without AVX2 `polynomial_sub` returns the sum: the
dispatch falls back to `scalar::vector_add`. -/
theorem C90_sub_violated : (∀ (p : Platform) (ft : Features), p.x86 = some ft → ft.avx2 = false →
      ∀ c a b : List (BitVec 64), a.length = c.length → b.length = c.length →
        polynomialSub p c a b = some (List.zipWith (· + ·) a b)) ∧
    polynomialSub exOld [0] [5] [3] = some [8] ∧ polynomialSub exServer [0] [5] [3] = some [2] := by
  refine ⟨?_, by decide +kernel, by decide +kernel⟩
  intro p ft h h2 c a b ha hb
  rw [polynomialSub, if_pos ⟨ha.symm, hb.symm⟩, vectorSub, h]
  simp only [h2]
  exact zip3_ab (· + ·) c a b ha.symm hb.symm

/-- **C90, violated: AVX-512 multiply-add accesses memory outside the slices.** For every polynomial whose length is not a
multiple of 16 the AVX-512 kernel reads and writes past the end, whatever the operands; on the other platforms a
polynomial of 8 coefficients is fine. -/
theorem C90_scalar_mad_violated : (∀ (p : Platform) (ft : Features), p.x86 = some ft → ft.avx512f = true →
      ∀ (c a : Slice (BitVec 64)) (s : BitVec 64), c.data.length % 16 ≠ 0 → polynomialSmallScalarMad p c a s = none) ∧
    polynomialSmallScalarMad exOld ⟨0, List.replicate 8 1⟩ ⟨8, List.replicate 8 2⟩ 3 = some (List.replicate 8 7) := by
  refine ⟨?_, by decide +kernel⟩
  intro p ft h h2 c a s hl
  rw [polynomialSmallScalarMad, vectorScalarMad, h]
  simp only [h2, if_true]
  rw [avx512ScalarMad, if_neg (by omega)]
  split
  · cases hc : c.data.length with
    | zero => omega
    | succ n =>
      rw [← hc]
      by_cases h16 : c.data.length < 16
      · rw [hc, scalarMadLoop, if_pos (by omega)]
        cases hb : scalarMadBody a s c 0 with
        | none => rfl
        | some t => have := (scalarMadBody_length hb).2; omega
      · rw [hc, scalarMadLoop, if_pos (by omega)]
        cases hb : scalarMadBody a s c 0 with
        | none => rfl
        | some t =>
          have := scalarMadBody_length hb
          rw [Option.bind_some, scalarMadLoop_ub a s n (0 + 16) t (by omega) (by omega) (by omega)]; rfl
  · rfl

/-- **C90, violated: AVX512F without AVX512DQ.** On such a CPU (Xeon Phi) the multiply-add is an illegal instruction for every
non-empty polynomial: only the F feature is queried, and `vpmullq` needs DQ. -/
theorem C90_scalar_mad_dq_violated (p : Platform) (ft : Features) (h : p.x86 = some ft) (h1 : ft.avx512f = true)
    (h2 : ft.avx512dq = false) (c a : Slice (BitVec 64)) (s : BitVec 64) (hc : c.data.length ≠ 0) :
    polynomialSmallScalarMad p c a s = none := by
  rw [polynomialSmallScalarMad, vectorScalarMad, h]
  simp only [h1, if_true]
  rw [avx512ScalarMad, if_neg hc, if_neg (by simp [h2])]

/-- **C90, violated: overflow checks.** In a build with overflow checks on a CPU with AVX2, adding or subtracting torus elements
panics as soon as a coefficient wraps around, although addition on the torus always does; the scalar multiply-add
panics on every platform without AVX-512. -/
theorem C90_overflow_violated :
    polynomialAdd { exServer with checks := true } [0] [-1] [1] = none ∧ polynomialAdd { exArm with checks := true } [0] [-1] [1] = some [0] ∧
    polynomialSub { exServer with checks := true } [0] [0] [1] = none ∧ polynomialSub { exArm with checks := true } [0] [0] [1] = some [-1] ∧
    polynomialSmallScalarMad { exArm with checks := true } ⟨0, [0]⟩ ⟨8, [-1]⟩ 2 = none := by
  refine ⟨?_, ?_, ?_, ?_, ?_⟩ <;> decide +kernel

/-- **C90, violated: short transforms.** On x86-64 the frequency-domain multiply-add panics whenever the length is not a
multiple of 8, that is for every polynomial degree below 16; elsewhere it does not. -/
theorem C90_complex_mad_violated : (∀ {R : Type} [CommRing R] (p : Platform) (ft : Features), p.x86 = some ft →
      ∀ c a b : Slice (Cx R), a.data.length % 8 ≠ 0 → complexMad p c a b = none) ∧
    complexMad exArm ⟨0, [((1, 0) : Cx Int)]⟩ ⟨8, [(1, 1)]⟩ ⟨16, [(2, 3)]⟩ = some [(0, 5)] := by
  refine ⟨?_, by decide +kernel⟩
  intro R _ p ft h c a b hl
  rw [complexMad, h]
  simp only
  rw [if_neg]
  rintro ⟨_, _, _, _, _, h⟩
  exact hl h

end Spf.Props
