import Verif.Proof.Bincode
import Mathlib.Tactic.Ring

/-!
# C24, C74: safe deserialization
-/
namespace Spf.Props
open Spf.Bincode

/-- An entity of `n` elements, each made of `w` 64-bit words. -/
def EntityOk (w n : Nat) (v : Data) : Prop :=
  v.length = n ∧ ∀ e ∈ v, e.length = w ∧ ∀ x ∈ e, x < 2 ^ 64

/-- A ciphertext of kind `k` that fits the parameters. -/
def CtOk (p : Params) (k : CtKind) (v : Data) : Prop := EntityOk (ctWords k) (ctLen p k) v

theorem words_of_entity {w n : Nat} {v : Data} (hn : n < 2 ^ 64) (h : EntityOk w n v) :
    Words w v :=
  ⟨by rw [h.1]; exact hn, fun e he => ⟨(h.2 e he).1, fun x hx => by
    have := (h.2 e he).2 x hx; norm_num at this ⊢; exact this⟩⟩

theorem entity_of_words {w n : Nat} {v : Data} (h : Words w v) (hn : v.length = n) :
    EntityOk w n v :=
  ⟨hn, fun e he => ⟨(h.2 e he).1, fun x hx => by
    have := (h.2 e he).2 x hx; norm_num at this ⊢; exact this⟩⟩

theorem shape_iff (fs : List (Nat × Nat)) (hf : ∀ f ∈ fs, f.2 < 2 ^ 64) (vs : List Data) :
    (AreWords fs vs ∧ fieldsValid fs vs = true) ↔
      List.Forall₂ (fun f v => EntityOk f.1 f.2 v) fs vs := by
  induction fs generalizing vs with
  | nil =>
    cases vs with
    | nil => simp [AreWords, fieldsValid]
    | cons => exact ⟨fun h => absurd h.1 (by simp [AreWords]), fun h => by cases h⟩
  | cons f fs ih =>
    obtain ⟨w, n⟩ := f
    cases vs with
    | nil => exact ⟨fun h => absurd h.1 (by simp [AreWords]), fun h => by cases h⟩
    | cons v vs =>
      have ih' := ih (fun g hg => hf g (by simp [hg])) vs
      have hn : n < 2 ^ 64 := hf (w, n) (by simp)
      simp only [AreWords, fieldsValid, Bool.and_eq_true, beq_iff_eq, List.forall₂_cons]
      rw [← ih']
      constructor
      · rintro ⟨⟨a, b⟩, c, d⟩; exact ⟨entity_of_words a c, b, d⟩
      · rintro ⟨a, b, d⟩; exact ⟨⟨words_of_entity hn a, b⟩, a.1, d⟩

/-- Bytes needed by the entities of a struct. -/
def need (fs : List (Nat × Nat)) : Nat := (fs.map fun f => 8 + f.2 * (f.1 * 8)).sum

theorem length_serFields (fs : List (Nat × Nat)) (hf : ∀ f ∈ fs, f.2 < 2 ^ 64) (vs : List Data)
    (h : List.Forall₂ (fun f v => EntityOk f.1 f.2 v) fs vs) :
    (serFields vs).length = need fs := by
  induction h with
  | nil => rfl
  | @cons f v fs vs h1 _ ih =>
    have ih' := ih (fun g hg => hf g (by simp [hg]))
    have := length_serData (words_of_entity (hf f (by simp)) h1)
    simp only [serFields, need, List.flatMap_cons, List.length_append, List.map_cons,
      List.sum_cons] at *
    rw [this, ih', h1.1]

theorem glweFft_le (p : Params) : 2 * glweFftSize p ≤ glweSize p := by
  simp only [glweFftSize, glweSize, glweSkSize]
  have h : 2 * (p.l1Degree / 2) ≤ p.l1Degree := by omega
  calc 2 * (p.l1Degree / 2 * (p.l1Size + 1)) = 2 * (p.l1Degree / 2) * (p.l1Size + 1) := by ring
    _ ≤ p.l1Degree * (p.l1Size + 1) := Nat.mul_le_mul_right _ h
    _ = _ := by ring

theorem glweFft_eq (p : Params) (h : p.l1Degree % 2 = 0) : 2 * glweFftSize p = glweSize p := by
  simp only [glweFftSize, glweSize, glweSkSize]
  have h : 2 * (p.l1Degree / 2) = p.l1Degree := by omega
  calc 2 * (p.l1Degree / 2 * (p.l1Size + 1)) = 2 * (p.l1Degree / 2) * (p.l1Size + 1) := by ring
    _ = p.l1Degree * (p.l1Size + 1) := by rw [h]
    _ = _ := by ring

theorem ggswFft_le (p : Params) (r : Nat) : 2 * ggswFftSize p r ≤ ggswSize p r := by
  simp only [ggswFftSize, ggswSize, glevFftSize, glevSize]
  calc _ = 2 * glweFftSize p * r * (p.l1Size + 1) := by ring
    _ ≤ _ := Nat.mul_le_mul_right _ (Nat.mul_le_mul_right _ (glweFft_le p))

theorem need_le (p : Params) (t : Ty) : need (fields p t) ≤ getSize p t := by
  cases t with
  | ct k =>
    cases k <;> simp [need, fields, getSize, ctWords, ctLen, ctGetSize]
    case l1ggsw => have := ggswFft_le p p.cbs; omega
    all_goals omega
  | bit k =>
    cases k <;> simp [need, fields, getSize, ctWords, ctLen, ctGetSize]
    case l1ggsw => have := ggswFft_le p p.cbs; omega
    all_goals omega
  | publicPad => simp [need, fields, getSize, ctGetSize]; omega
  | secretPad => simp [need, fields, getSize]; omega
  | publicKey => simp [need, fields, getSize]; omega
  | secretKey => simp [need, fields, getSize]; omega
  | computeKeyNonFft => simp [need, fields, getSize]; omega
  | computeKey =>
    have h1 : 2 * bskFftSize p ≤ bskSize p := by
      simp only [bskFftSize, bskSize]
      calc _ = 2 * ggswFftSize p p.pbs * p.l0Dim := by ring
        _ ≤ _ := Nat.mul_le_mul_right _ (ggswFft_le p p.pbs)
    have h2 : 2 * sskFftSize p ≤ sskSize p := by
      simp only [sskFftSize, sskSize]
      calc _ = 2 * glweFftSize p * p.ss * triEntries p.l1Size := by ring
        _ ≤ _ := Nat.mul_le_mul_right _ (Nat.mul_le_mul_right _ (glweFft_le p))
    simp [need, fields, getSize]
    omega

/-- C74. For the ciphertexts, encrypted bits, one time pads and keys, safe deserialization accepts
a byte string exactly when it starts with the serialization of a value of the type whose entities
all have the size the parameters ask for, and then returns that value. (Sizes fit in a `u64`.) -/
theorem C74_accepts_exactly (p : Params) (t : Ty) (hf : ∀ f ∈ fields p t, f.2 < 2 ^ 64)
    (data : List Byte) (vs : List Data) :
    deserialize p t data = some vs ↔
      List.Forall₂ (fun f v => EntityOk f.1 f.2 v) (fields p t) vs ∧
        ∃ rest, data = serFields vs ++ rest := by
  rw [deserialize, deserializeWith_iff (readFields_codec _)]
  constructor
  · rintro ⟨a, b, _, r⟩
    exact ⟨(shape_iff _ hf vs).1 ⟨a, b⟩, r⟩
  · rintro ⟨a, r⟩
    obtain ⟨b, c⟩ := (shape_iff _ hf vs).2 a
    exact ⟨b, c, by rw [length_serFields _ hf _ a]; exact need_le p t, r⟩

/-- C74. Round trip: every value of a type that fits the parameters survives serialization followed
by safe deserialization. -/
theorem C74_round_trip (p : Params) (t : Ty) (hf : ∀ f ∈ fields p t, f.2 < 2 ^ 64)
    (vs : List Data) (h : List.Forall₂ (fun f v => EntityOk f.1 f.2 v) (fields p t) vs) :
    deserialize p t (serFields vs) = some vs :=
  (C74_accepts_exactly p t hf _ _).2 ⟨h, [], by simp⟩

/-- Small parameters for the examples. -/
def exParams : Params :=
  { l0Dim := 2, l1Size := 1, l1Degree := 2, cbs := 1, pbs := 1, ks := 1, ss := 1, tr := 1 }

/-- The default parameters meet the size hypothesis for every type. -/
example : ∀ t ∈ [Ty.ct .l0lwe, .ct .l1lwe, .ct .l1glwe, .ct .l1ggsw, .ct .l1glev, .publicPad,
    .secretPad, .publicKey, .secretKey, .computeKeyNonFft, .computeKey],
    ∀ f ∈ fields default128 t, f.2 < 2 ^ 64 := by decide +kernel

example : deserialize exParams .secretKey
    (serFields [[[5], [6]], [[1], [0]]] ++ [7, 7]) = some [[[5], [6]], [[1], [0]]] := by
  decide +kernel

/-- The wrong dimension is refused although there are enough bytes. -/
example : deserialize exParams .secretKey (serFields [[[5]], [[6], [1], [0]]]) = none := by
  decide +kernel

theorem length_ct (p : Params) (k : CtKind) (hk : k = .l1ggsw → p.l1Degree % 2 = 0)
    (hs : ctLen p k < 2 ^ 64) (v : Data) (h : CtOk p k v) :
    (serData v).length = ctGetSize p k := by
  rw [length_serData (words_of_entity hs h), h.1]
  cases k <;> simp [ctWords, ctLen, ctGetSize] at *
  case l1ggsw =>
    have h2 := glweFft_eq p hk
    have : 2 * ggswFftSize p p.cbs = ggswSize p p.cbs := by
      simp only [ggswFftSize, ggswSize, glevFftSize, glevSize, ← h2]; ring
    omega
  all_goals omega

theorem ctGetSize_pos (p : Params) (k : CtKind) : 8 ≤ ctGetSize p k := by
  cases k <;> simp only [ctGetSize] <;> omega

/-- C24, what holds. For an encrypted integer type of `N` bits, safe deserialization accepts a byte
string exactly when it starts with the serialization of *at most* `N` ciphertexts, each of the right
size for the parameters, and then returns those ciphertexts as the bits. What is missing for C24:
the number of bits need not be `N` (`C24_violated`). -/
theorem C24_unpacked_partial (p : Params) (k : CtKind) (N : Nat)
    (hk : k = .l1ggsw → p.l1Degree % 2 = 0) (hs : ctLen p k < 2 ^ 64) (hN : N < 2 ^ 64)
    (data : List Byte) (bits : List Data) :
    deserializeInt p k N data = some bits ↔
      bits.length ≤ N ∧ (∀ b ∈ bits, CtOk p k b) ∧ ∃ rest, data = serInt bits ++ rest := by
  have hlen : (∀ b ∈ bits, CtOk p k b) →
      (serSeq serData bits).length = 8 + bits.length * ctGetSize p k := by
    intro h
    simp only [serSeq, List.length_append, length_leBytes]
    congr 1
    exact length_flatMap_const _ _ _ fun b hb => length_ct p k hk hs b (h b hb)
  rw [deserializeInt, deserializeWith_iff (readSeq_codec (readData_codec _))]
  constructor
  · rintro ⟨⟨_, a⟩, b, c, r⟩
    have hok : ∀ x ∈ bits, CtOk p k x := fun x hx =>
      entity_of_words (a x hx) (by
        have := List.all_eq_true.1 b x hx
        simpa [ctValid] using this)
    refine ⟨?_, hok, r⟩
    rw [hlen hok] at c
    have h8 := ctGetSize_pos p k
    have : bits.length * ctGetSize p k ≤ N * ctGetSize p k := by omega
    exact Nat.le_of_mul_le_mul_right this (by omega)
  · rintro ⟨hl, hok, r⟩
    refine ⟨⟨by omega, fun x hx => words_of_entity hs (hok x hx)⟩, ?_, ?_, r⟩
    · exact List.all_eq_true.2 fun x hx => by simpa [ctValid] using (hok x hx).1
    · rw [hlen hok]
      have := Nat.mul_le_mul_right (ctGetSize p k) hl
      omega

/-- C24. Round trip for honest `N`-bit integers. -/
theorem C24_round_trip (p : Params) (k : CtKind) (N : Nat)
    (hk : k = .l1ggsw → p.l1Degree % 2 = 0) (hs : ctLen p k < 2 ^ 64) (hN : N < 2 ^ 64)
    (bits : List Data) (hl : bits.length = N) (h : ∀ b ∈ bits, CtOk p k b) :
    deserializeInt p k N (serInt bits) = some bits :=
  (C24_unpacked_partial p k N hk hs hN _ _).2 ⟨by omega, h, [], by simp⟩

/-- C24, what holds for packed integers: acceptance means a prefix is the serialization of some
`bit_len` and one ciphertext of the right size. What is missing: `bit_len` need not be `N`
(`C24_packed_violated`). -/
theorem C24_packed_partial (p : Params) (k : CtKind) (N : Nat) (hs : ctLen p k < 2 ^ 64)
    (data : List Byte) (n : Nat) (v : Data) :
    deserializePacked p k N data = some (n, v) ↔
      n < 2 ^ 32 ∧ CtOk p k v ∧ ∃ rest, data = serPacked (n, v) ++ rest := by
  rw [deserializePacked, deserializeWith_iff (readPacked_codec k)]
  constructor
  · rintro ⟨⟨a, b⟩, c, _, r⟩
    exact ⟨a, entity_of_words b (by simpa [ctValid] using c), r⟩
  · rintro ⟨a, b, r⟩
    refine ⟨⟨a, words_of_entity hs b⟩, by simpa [ctValid] using b.1, ?_, r⟩
    have h1 := length_serFields [(ctWords k, ctLen p k)] (by simpa using hs) [v] (List.Forall₂.cons b .nil)
    have h2 := need_le p (.ct k)
    simp only [serFields, List.flatMap_cons, List.flatMap_nil, List.append_nil] at h1
    simp only [fields, getSize] at h2
    simp only [serPacked, List.length_append, length_leBytes]
    omega

/-- C24 fails: for every parameter set, ciphertext kind and positive width, eight zero bytes are
accepted as an `N`-bit encrypted integer and give an integer without any bit. -/
theorem C24_violated (p : Params) (k : CtKind) (N : Nat) (hN : 0 < N) :
    ∃ data bits, deserializeInt p k N data = some bits ∧ bits.length ≠ N := by
  refine ⟨serInt [], [], ?_, by simpa using hN.ne⟩
  rw [deserializeInt, deserializeWith_iff (readSeq_codec (readData_codec _))]
  refine ⟨⟨by simp, by simp⟩, by simp, ?_, [], by simp [serInt]⟩
  simp [serSeq, length_leBytes]

/-- C24 fails for packed integers: for every declared width some byte string is accepted whose
`bit_len` is another width. -/
theorem C24_packed_violated (p : Params) (k : CtKind) (N : Nat) (hs : ctLen p k < 2 ^ 64) :
    ∃ data n v, deserializePacked p k N data = some (n, v) ∧ n ≠ N := by
  let v : Data := List.replicate (ctLen p k) (List.replicate (ctWords k) 0)
  have hv : CtOk p k v := ⟨by simp [v], fun e he => by
    rw [List.eq_of_mem_replicate he]
    exact ⟨by simp, fun x hx => by rw [List.eq_of_mem_replicate hx]; norm_num⟩⟩
  refine ⟨serPacked (if N = 0 then 1 else 0, v), (if N = 0 then 1 else 0), v,
    (C24_packed_partial p k N hs _ _ _).2 ⟨?_, hv, [], by simp⟩, ?_⟩
  · split <;> norm_num
  · split <;> omega

/-- The hypotheses hold at the default parameters. -/
example : ∀ k ∈ [CtKind.l0lwe, .l1lwe, .l1glwe, .l1ggsw, .l1glev],
    (k = .l1ggsw → default128.l1Degree % 2 = 0) ∧ ctLen default128 k < 2 ^ 64 := by
  decide +kernel

/-- A concrete two bit integer is read back. -/
example : deserializeInt exParams .l0lwe 2 (serInt [[[1], [2], [3]], [[4], [5], [6]]]) =
    some [[[1], [2], [3]], [[4], [5], [6]]] := by decide +kernel

/-- ... and the same bytes are refused at width 1 but accepted at width 15. -/
example : deserializeInt exParams .l0lwe 1 (serInt [[[1], [2], [3]], [[4], [5], [6]]]) = none ∧
    deserializeInt exParams .l0lwe 15 (serInt [[[1], [2], [3]], [[4], [5], [6]]]) =
      some [[[1], [2], [3]], [[4], [5], [6]]] := by decide +kernel

example : deserializePacked exParams .l1glwe 8 (serPacked (9, [[1], [2], [3], [4]]) ++ [1]) =
    some (9, [[1], [2], [3], [4]]) := by decide +kernel

end Spf.Props
