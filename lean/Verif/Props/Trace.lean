import Verif.Proof.Trace
/-!
C78 and C79: GLWE keyswitching and the homomorphic trace. Torus elements are `BitVec W`, `N = 2^n`, keys have `d`
polynomials; all masks, bounded noises and bounded errors of the inverse Fourier transform are universally quantified.
-/
namespace Spf.Props
open Spf.Spec Spf.Tfhe

/-- a freshly allocated (all-zero) GLWE keyswitch key: `d` rows of `count` zero GLWE ciphertexts -/
def freshGlweKsk (W d N count : Nat) : List (List (Glwe (BitVec W))) := List.replicate d (List.replicate count (glweZero d N))

theorem freshKsk_ok {W d N count : Nat} :
    (freshGlweKsk W d N count).length = d ∧ ∀ row ∈ freshGlweKsk W d N count, row.length = count ∧ ∀ b ∈ row, FreshBuf d N b := by
  refine ⟨by simp [freshGlweKsk], fun row hrow => ?_⟩
  rw [freshGlweKsk] at hrow
  rw [List.eq_of_mem_replicate hrow]
  refine ⟨by simp, fun b hb => ?_⟩
  rw [List.eq_of_mem_replicate hb]
  exact ⟨glweZero_valid d N, by simp [glweZero]⟩

private theorem add_zeros {W N : Nat} : ∀ (as : List (List (BitVec W))), AllLen N as → zipPolys polyAdd as (List.replicate as.length (List.replicate N 0)) = some as
  | [], _ => rfl
  | a :: as, h => by
    have hz : polyAdd a (List.replicate N 0) = some a := by
      rw [polyAdd, if_pos (by simp [h.cons.1])]
      congr 1
      have := h.cons.1
      subst this
      apply List.ext_getElem (by simp)
      intro i h1 h2
      simp
    rw [List.length_cons, List.replicate_succ, zipPolys, hz, add_zeros as h.cons.2]

private theorem add_zero' {W k N : Nat} (c : Glwe (BitVec W)) (hc : c.valid k N) : glweAdd c (glweZero k N) = some c := by
  have h1 := add_zeros c.a hc.2.1
  have h2 := add_zeros [c.b] (N := N) (by intro p hp; rw [List.mem_singleton] at hp; rw [hp]; exact hc.2.2)
  rw [hc.1] at h1
  simp only [List.length_singleton, List.replicate_one, zipPolys] at h2
  cases h3 : polyAdd c.b (List.replicate N 0) with
  | none => rw [h3] at h2; simp at h2
  | some y =>
    rw [h3] at h2
    simp only [Option.some.injEq, List.cons.injEq, and_true] at h2
    rw [glweAdd, glweZero, h1, h3, h2]

private theorem ks_exact {W n d : Nat} (hN : isPow2 (2 ^ n) = true) {E : Nat} {r : Radix} (hl : 0 < r.log) (hc : 0 < r.count) (hlt : r.log * r.count < W)
    (old sk : List (List (BitVec W))) (hold : KeyFor old d (2 ^ n)) (ksk : List (List (Glwe (BitVec W))))
    (hk : List.Forall₂ (GlevOk d (2 ^ n) r.log r.count E sk) (old.map (cls (2 ^ n))) ksk) (ct : Glwe (BitVec W)) (hct : ct.valid d (2 ^ n)) :
    glweKeyswitchFft d (2 ^ n) r (glweZero d (2 ^ n)) ct ksk = glweKeyswitch d (2 ^ n) r ct ksk := by
  obtain ⟨sum, _, _, o1, o2, _⟩ := ggswMadLoop_spec hN hl hc hlt sk ct.a (old.map (cls (2 ^ n))) ksk (glweZero d (2 ^ n))
    (by simp [hct.1, hold.1]) hct.2.1 hk (glweZero_valid d (2 ^ n))
  rw [glweKeyswitchFft, glweKeyswitch, o1]
  simp only [add_zero' sum o2]

/-- **C78.** Generate a keyswitch key from `old` to `new` into fresh memory (any masks, any noise of absolute value at most
`E`; key coefficients at most `S` and `S'`). Generation succeeds, and switching *any* ciphertext succeeds and decrypts
under `new`, coefficient by coefficient, to what the input decrypts to under `old`, up to
`d*N*S*2^(W - log*count - 1) + d*count*N*2^(log-1)*E`, plus, for the Fourier version, `(1 + d*N*S')*F` where `F` bounds the
coefficients of the error `fe` of the inverse transform. -/
theorem C78_glwe_keyswitch (W : Nat) (hW : W ≤ 64) (n d E S S' F : Nat) (r : Radix) (hl : 0 < r.log) (hc : 0 < r.count)
    (hlt : r.log * r.count < W) (old new : List (List (BitVec W))) (hold : KeyFor old d (2 ^ n)) (hnew : KeyFor new d (2 ^ n))
    (hS : KeyBound S old) (hS' : KeyBound S' new) (masks : Nat → Nat → List (List (BitVec W))) (hma : ∀ i j, KeyFor (masks i j) d (2 ^ n))
    (noise : Nat → Nat → Option (List Int)) (hno : ∀ i j, NoiseOk (2 ^ n) E (noise i j)) :
    ∃ ksk, glweKskGen (2 ^ n) r (freshGlweKsk W d (2 ^ n) r.count) old new masks (fun i j => (noise i j).map fun l => l.map (BitVec.ofInt W)) = some ksk ∧
      ∀ ct : Glwe (BitVec W), ct.valid d (2 ^ n) → ∃ x, glweDecrypt ct old = some x ∧
        (∃ out y, glweKeyswitch d (2 ^ n) r ct ksk = some out ∧ out.valid d (2 ^ n) ∧ glweDecrypt out new = some y ∧
          NearPoly (d * (2 ^ n * (S * 2 ^ (W - r.log * r.count - 1))) + d * (r.count * (2 ^ n * (2 ^ (r.log - 1) * E)))) y x) ∧
        ∀ fe : Glwe (BitVec W), fe.valid d (2 ^ n) → (∀ p ∈ fe.b :: fe.a, ∀ x ∈ p, x.toInt.natAbs ≤ F) →
          ∃ out y, glweKeyswitchFft d (2 ^ n) r fe ct ksk = some out ∧ out.valid d (2 ^ n) ∧ glweDecrypt out new = some y ∧
            NearPoly (d * (2 ^ n * (S * 2 ^ (W - r.log * r.count - 1))) + d * (r.count * (2 ^ n * (2 ^ (r.log - 1) * E))) +
              (F + d * (2 ^ n * (F * S')))) y x := by
  have hN : isPow2 (2 ^ n) = true := isPow2_iff.mpr ⟨n, rfl⟩
  obtain ⟨ksk, h1, h2⟩ := glweKskRows_spec hW r hl (le_of_lt hlt) old new hold hnew masks noise hma hno 0 (freshGlweKsk W d (2 ^ n) r.count)
    (by simp [freshGlweKsk]) freshKsk_ok.2
  rw [List.drop_zero] at h2
  refine ⟨ksk, h1, fun ct hct => ?_⟩
  obtain ⟨x, x1, x2, x3⟩ := decrypt_phase hN ct old hct hold.2
  have main : ∀ F (fe : Glwe (BitVec W)), fe.valid d (2 ^ n) → (∀ p ∈ fe.b :: fe.a, ∀ x ∈ p, x.toInt.natAbs ≤ F) →
      ∃ out y, glweKeyswitchFft d (2 ^ n) r fe ct ksk = some out ∧ out.valid d (2 ^ n) ∧ glweDecrypt out new = some y ∧
        NearPoly (glweKsBound W d (2 ^ n) r S S' E F) y x := by
    intro F fe hfe hF
    obtain ⟨out, o1, o2, o3⟩ := glweKeyswitchFft_spec (F := F) hN hl hc hlt old new hold hnew.1 (key_small hold hS) (key_small hnew hS') ksk h2 fe ct hct hfe
      (fun a ha => small_of_bound (hfe.2.1 a ha) (hF a (by simp [ha]))) (small_of_bound hfe.2.2 (hF _ (by simp)))
    obtain ⟨y, y1, y2, y3⟩ := decrypt_phase hN out new o2 hnew.2
    exact ⟨out, y, o1, o2, y1, nearPoly_of_small y2 x2 (by rw [y3, x3]; exact o3)⟩
  refine ⟨x, x1, ?_, fun fe hfe hF => main F fe hfe hF⟩
  obtain ⟨out, y, o1, o2, o3, o4⟩ := main 0 (glweZero d (2 ^ n)) (glweZero_valid _ _) (by
    intro p hp z hz
    have : p = List.replicate (2 ^ n) 0 := by
      simp only [glweZero, List.mem_cons] at hp
      rcases hp with rfl | hp
      · rfl
      · exact List.eq_of_mem_replicate hp
    rw [this] at hz
    rw [List.eq_of_mem_replicate hz]; simp)
  rw [ks_exact hN hl hc hlt old new hold ksk h2 ct hct] at o1
  refine ⟨out, y, o1, o2, o3, ?_⟩
  simp only [glweKsBound, Nat.zero_mul, Nat.mul_zero, Nat.add_zero] at o4
  exact o4

/-- a concrete case meets the hypotheses -/
example : KeyFor [[1#64, 0#64, 0#64, 1#64]] 1 (2 ^ 2) ∧ KeyFor [[0#64, 1#64, 1#64, 1#64]] 1 (2 ^ 2) ∧ KeyBound 1 [[1#64, 0#64, 0#64, 1#64]] ∧
    KeyBound 1 [[0#64, 1#64, 1#64, 1#64]] ∧ NoiseOk (2 ^ 2) 3 (some [1, -3, 0, 2]) ∧ 0 < 7 ∧ 7 * 6 < 64 := by
  refine ⟨⟨rfl, by simp⟩, ⟨rfl, by simp⟩, by simp [KeyBound], by simp [KeyBound], ?_, by decide, by decide⟩
  intro l hl
  obtain rfl := Option.some.inj hl
  exact ⟨rfl, by decide⟩

/-- and a switch that is computed: degree 2, from key `X` to key `1 + X`, no noise -/
example : ((glweKskGen (W := 8) 2 ⟨3, 2⟩ (freshGlweKsk 8 1 2 2) [[0, 1]] [[1, 1]] (fun i j => [[BitVec.ofNat 8 (5 * i + j), 77]])
    (fun _ _ => none)).bind fun ksk => (glweKeyswitch 1 2 ⟨3, 2⟩ ⟨[[0x14#8, 0x24#8]], [0x78#8, 0x10#8]⟩ ksk).bind
      fun c => glweDecrypt c [[1, 1]]) = glweDecrypt ⟨[[0x14#8, 0x24#8]], [0x78#8, 0x10#8]⟩ [[0, 1]] := by decide +kernel

/-- a freshly allocated automorphism key: `log2 N` keyswitch keys -/
def freshAk (W d n count : Nat) : List (List (List (Glwe (BitVec W)))) := List.replicate n (freshGlweKsk W d (2 ^ n) count)

/-- **C79.** Generate an automorphism key for the key `sk` into fresh memory (any masks, any noise of absolute value at
most `E`, any contents of the scratch memory; in a build with overflow checks the key must be binary, see
`C79_overflow_violated`). Generation succeeds, and the trace of *any* ciphertext `x` succeeds and decrypts, up to
`(N - 1)` times the error of one keyswitch (that of `C78`), to the polynomial whose constant coefficient is `N` times that
of the decryption of `x`, all other coefficients being zero. -/
theorem C79_trace_partial (W : Nat) (hW : W ≤ 64) (checked : Bool) (n d E S F : Nat) (r : Radix) (hl : 0 < r.log) (hc : 0 < r.count)
    (hlt : r.log * r.count < W) (sk : List (List (BitVec W))) (hsk : KeyFor sk d (2 ^ n)) (hS : KeyBound S sk)
    (hbin : checked = true → ∀ s ∈ sk, ∀ x ∈ s, x = 0 ∨ x = 1)
    (masks : Nat → Nat → Nat → List (List (BitVec W))) (hma : ∀ h i j, KeyFor (masks h i j) d (2 ^ n))
    (noise : Nat → Nat → Nat → Option (List Int)) (hno : ∀ h i j, NoiseOk (2 ^ n) E (noise h i j))
    (scratch : List (List (BitVec W))) (hsc : KeyFor scratch d (2 ^ n)) :
    ∃ ak, akGen checked (2 ^ n) r (freshAk W d n r.count) scratch sk masks (fun h i j => (noise h i j).map fun l => l.map (BitVec.ofInt W)) = some ak ∧
      ∀ (x junk : Glwe (BitVec W)) (fe : Nat → Glwe (BitVec W)), x.valid d (2 ^ n) → junk.valid d (2 ^ n) →
        (∀ i, (fe i).valid d (2 ^ n) ∧ ∀ p ∈ (fe i).b :: (fe i).a, ∀ z ∈ p, z.toInt.natAbs ≤ F) →
        ∃ m out y, glweDecrypt x sk = some m ∧ trace d (2 ^ n) r fe junk x ak = some out ∧ out.valid d (2 ^ n) ∧ glweDecrypt out sk = some y ∧
          NearPoly ((2 ^ n - 1) * (d * (2 ^ n * (S * 2 ^ (W - r.log * r.count - 1))) + d * (r.count * (2 ^ n * (2 ^ (r.log - 1) * E))) +
              (F + d * (2 ^ n * (F * S))))) y
            ((BitVec.ofNat W (2 ^ n) * m.getD 0 0) :: List.replicate (2 ^ n - 1) 0) := by
  have hN : isPow2 (2 ^ n) = true := isPow2_iff.mpr ⟨n, rfl⟩
  have hv : r.valid W = true := by
    have := Nat.mul_comm r.log r.count
    simp only [Radix.valid, Bool.and_eq_true, decide_eq_true_eq]; omega
  obtain ⟨ak, a1, a2, a3⟩ := akLoop_spec (checked := checked) hW r hl (le_of_lt hlt) sk hsk hbin masks noise hma hno 0 scratch (freshAk W d n r.count)
    (by simp [freshAk]) hsc (by
      intro buf hbuf
      rw [freshAk] at hbuf
      rw [List.eq_of_mem_replicate hbuf]
      exact freshKsk_ok)
  have hakl : ak.length = n := by rw [a2]; simp [freshAk]
  refine ⟨ak, by rw [akGen, log2_pow, if_pos ⟨hv, by simp [freshAk]⟩]; exact a1, fun x junk fe hx hj hfe => ?_⟩
  obtain ⟨m, m1, m2, m3⟩ := decrypt_phase hN x sk hx hsk.2
  obtain ⟨out, o1, o2, o3⟩ := traceLoop_spec (F := F) hl hc hlt sk hsk (key_small hsk hS) fe hfe m m2 0 ak junk x (by omega) a3 hj hx (by
    rw [keepMul_zero, m3, sub_self]
    exact small_zero.mono (Nat.zero_le _))
  obtain ⟨y, y1, y2, y3⟩ := decrypt_phase hN out sk o2 hsk.2
  refine ⟨m, out, y, m1, by rw [trace, log2_pow, if_pos ⟨hv, hakl⟩]; exact o1, o2, y1, ?_⟩
  have hpos := Nat.two_pow_pos n
  apply nearPoly_of_small y2 (by simp; omega)
  rw [y3, ← keepMul_last m m2]
  exact o3

/-- hypotheses met by a binary key of one polynomial of degree 4 -/
example : KeyFor [[1#64, 0#64, 0#64, 1#64]] 1 (2 ^ 2) ∧ KeyBound 1 [[1#64, 0#64, 0#64, 1#64]] ∧
    (∀ s ∈ [[1#64, 0#64, 0#64, 1#64]], ∀ x ∈ s, x = 0 ∨ x = 1) ∧ 7 * 6 < 64 := by
  refine ⟨⟨rfl, by simp⟩, by simp [KeyBound], by simp, by decide⟩

/-- a trace that is computed: degree 2, message with both coefficients set, no noise -/
example : ((akGen (W := 8) true 2 ⟨3, 2⟩ (freshAk 8 1 1 2) [[9, 9]] [[1, 1]] (fun _ i j => [[BitVec.ofNat 8 (5 * i + j), 77]])
    (fun _ _ _ => none)).bind fun ak => (trace 1 2 ⟨3, 2⟩ (fun _ => glweZero 1 2) ⟨[[8, 8]], [8, 8]⟩ ⟨[[0, 0]], [0x18#8, 0x20#8]⟩ ak).bind
      fun c => glweDecrypt c [[1, 1]]) = some [0x30#8, 0] := by decide +kernel

/-- **C79, violation.** In a build with overflow checks, generating an automorphism key panics when a coefficient of the key
other than the first is at least 2 as an unsigned integer (so for ternary or uniform keys): for the odd positions the
first exponent `N + 1` multiplies the coefficient by `-1` with the plain machine product. -/
theorem C79_overflow_violated (W : Nat) (n : Nat) (hn : 0 < n) (r : Radix) (hv : r.valid W = true) (s : List (BitVec W)) (hs : s.length = 2 ^ n)
    (i : Nat) (hi : i < 2 ^ n) (hodd : i % 2 = 1) (hx : 2 ≤ (s.getD i 0).toNat) (ss scratch : List (List (BitVec W))) (b : List (BitVec W))
    (count : Nat) (masks : Nat → Nat → Nat → List (List (BitVec W))) (noise : Nat → Nat → Nat → Option (List (BitVec W))) :
    akGen true (2 ^ n) r (freshAk W (ss.length + 1) n count) (b :: scratch) (s :: ss) masks noise = none := by
  obtain ⟨n, rfl⟩ : ∃ m, n = m + 1 := ⟨n - 1, by omega⟩
  rw [akGen, log2_pow, if_pos ⟨hv, by simp [freshAk]⟩, freshAk, List.replicate_succ, akLoop, if_neg (by omega), keyPowKs, keyPowK, if_pos]
  refine ⟨rfl, i, by rw [hs]; exact hi, ?_, ?_⟩
  · have : traceExp (2 ^ (n + 1)) 1 = 2 ^ (n + 1) + 1 := by simp [traceExp]
    rw [this, hs, Nat.mul_add, Nat.mul_one, Nat.mul_comm, Nat.mul_add_div (Nat.two_pow_pos _), Nat.div_eq_of_lt hi]
    omega
  · intro hlt
    have hW : 1 < W := by
      have := (s.getD i 0).isLt
      by_contra h
      have h1 : W = 0 ∨ W = 1 := by omega
      rcases h1 with rfl | rfl <;> simp at this <;> omega
    have h1 : (-1 : BitVec W).toNat = 2 ^ W - 1 := by
      rw [BitVec.toNat_neg]
      have : (1 : BitVec W).toNat = 1 := by
        show (BitVec.ofNat W 1).toNat = 1
        rw [BitVec.toNat_ofNat, Nat.mod_eq_of_lt (Nat.one_lt_two_pow (by omega))]
      rw [this]
      exact Nat.mod_eq_of_lt (by have := Nat.two_pow_pos W; omega)
    rw [h1] at hlt
    have h2 : 2 * (2 ^ W - 1) ≤ (s.getD i 0).toNat * (2 ^ W - 1) := Nat.mul_le_mul_right _ hx
    have h3 : 2 ^ 2 ≤ 2 ^ W := Nat.pow_le_pow_right (by decide) hW
    omega

/-- a ternary key, degree 2 -/
example : akGen (W := 8) true 2 ⟨3, 2⟩ (freshAk 8 1 1 2) [[0, 0]] [[1, -1]] (fun _ _ _ => [[0, 0]]) (fun _ _ _ => none) = none :=
  C79_overflow_violated 8 1 (by decide) ⟨3, 2⟩ (by decide) [1, -1] rfl 1 (by decide) rfl (by decide) [] [] [0, 0] 2 _ _

end Spf.Props
