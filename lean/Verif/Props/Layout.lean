import Verif.Model.Layout
import Verif.Props.Dst
/-! C98: the layout of ciphertexts and keys in flat slices. -/
namespace Spf.Props
open Spf.Dst Spf.Spec Spf.Layout Spf.Tfhe
variable {α β : Type}

/-- An LWE ciphertext in memory: the mask, then the body. -/
def flatLwe (c : Lwe α) : List α := c.a ++ [c.b]
/-- A GLWE ciphertext in memory: the mask polynomials, then the body polynomial. -/
def flatGlwe (c : Glwe α) : List α := c.a.flatten ++ c.b
/-- Shape of an LWE ciphertext. -/
def LweShape (n : Nat) (c : Lwe α) : Prop := c.a.length = n
/-- Shape of a GLWE ciphertext. -/
def GlweShape (k N : Nat) (c : Glwe α) : Prop := Many k (fun p => p.length = N) c.a ∧ c.b.length = N

theorem splitAt_app (u v : List α) (n : Nat) (h : u.length = n) : splitAt (u ++ v) n = some (u, v) := by
  subst h
  rw [splitAt, if_pos (by simp)]
  simp

theorem stores_lwe (n : Nat) : Stores (lweSize n) (viewLwe (α := α) n) flatLwe (LweShape n) := by
  constructor
  · intro x hx
    have hx' : x.a.length = n := hx
    refine ⟨by simp [flatLwe, lweSize, hx'], ?_⟩
    rw [viewLwe, flatLwe, splitAt_app _ _ n hx']
    rfl
  · intro data hd
    have hd' : data.length = n + 1 := hd
    cases data using List.reverseRecOn with
    | nil => simp at hd'
    | append_singleton u b =>
      have hu : u.length = n := by simpa using hd'
      exact ⟨⟨u, b⟩, by rw [viewLwe, splitAt_app _ _ n hu]; rfl, hu, rfl⟩

theorem flatten_length_many (s : Nat) : ∀ xs : List (List α), (∀ x ∈ xs, x.length = s) → xs.flatten.length = xs.length * s
  | [], _ => by simp
  | x :: xs, h => by
    rw [List.flatten_cons, List.length_append, h x (by simp), flatten_length_many s xs (fun y hy => h y (by simp [hy])),
      List.length_cons, Nat.add_mul, Nat.one_mul, Nat.add_comm]

theorem chunks_nil (s : Nat) : chunks s ([] : List α) = [] := by simp [chunks]

theorem chunks_single (s : Nat) (hs : s ≠ 0) (x : List α) (h : x.length = s) : chunks s x = [x] := by
  rw [chunks, h, Nat.div_self (Nat.pos_of_ne_zero hs)]
  simp [chunk, ← h]

theorem chunks_flatten (s : Nat) (hs : s ≠ 0) : ∀ xs : List (List α), (∀ x ∈ xs, x.length = s) → chunks s xs.flatten = xs
  | [], _ => chunks_nil s
  | x :: xs, h => by
    have h' : ∀ y ∈ xs, y.length = s := fun y hy => h y (by simp [hy])
    rw [List.flatten_cons, chunks_append x xs.flatten s 1 hs (by rw [h x (by simp), Nat.one_mul])
      ⟨xs.length, by rw [flatten_length_many s xs h', Nat.mul_comm]⟩, chunks_single s hs x (h x (by simp)),
      chunks_flatten s hs xs h']
    rfl

theorem chunks_length (s n : Nat) (hs : s ≠ 0) (data : List α) (h : data.length = s * n) : (chunks s data).length = n := by
  rw [chunks, List.length_map, List.length_range, h, Nat.mul_div_cancel_left _ (Nat.pos_of_ne_zero hs)]

theorem mapM_view (view : List α → Option β) (flat : β → List α) (shape : β → Prop) (size : Nat)
    (h : Stores size view flat shape) : ∀ xs : List β, (∀ x ∈ xs, shape x) → (xs.map flat).mapM view = some xs
  | [], _ => rfl
  | x :: xs, hx => by
    rw [List.map_cons, List.mapM_cons, (h.1 x (hx x (by simp))).2, mapM_view view flat shape size h xs (fun y hy => hx y (by simp [hy]))]
    rfl

theorem mapM_exists (view : List α → Option β) (flat : β → List α) (shape : β → Prop) (size : Nat)
    (h : Stores size view flat shape) : ∀ cs : List (List α), (∀ c ∈ cs, c.length = size) →
      ∃ xs, cs.mapM view = some xs ∧ (∀ x ∈ xs, shape x) ∧ xs.length = cs.length ∧ xs.map flat = cs
  | [], _ => ⟨[], rfl, by simp, rfl, rfl⟩
  | c :: cs, hc => by
    obtain ⟨xs, h1, h2, h3, h4⟩ := mapM_exists view flat shape size h cs (fun y hy => hc y (by simp [hy]))
    obtain ⟨x, g1, g2, g3⟩ := h.2 c (hc c (by simp))
    refine ⟨x :: xs, ?_, ?_, by simp [h3], by simp [g3, h4]⟩
    · rw [List.mapM_cons, g1, h1]; rfl
    · intro y hy
      rcases List.mem_cons.1 hy with rfl | hy
      · exact g2
      · exact h2 y hy

/-- Entities made of `n` entities one after another. -/
theorem stores_many (view : List α → Option β) (flat : β → List α) (shape : β → Prop) (size n : Nat) (hs : size ≠ 0)
    (h : Stores size view flat shape) : Stores (size * n) (viewMany size view) (flatMany flat) (Many n shape) := by
  constructor
  · rintro xs ⟨hn, hx⟩
    have hl : ∀ c ∈ xs.map flat, c.length = size := by
      intro c hc
      obtain ⟨x, hx', rfl⟩ := List.mem_map.1 hc
      exact (h.1 x (hx x hx')).1
    have e : flatMany flat xs = (xs.map flat).flatten := by rw [flatMany, List.flatMap_def]
    have hlen : (flatMany flat xs).length = size * n := by
      rw [e, flatten_length_many size _ hl, List.length_map, hn, Nat.mul_comm]
    refine ⟨hlen, ?_⟩
    rw [viewMany, C97_items _ size hs ⟨n, hlen⟩, e, chunks_flatten size hs _ hl]
    exact mapM_view view flat shape size h xs hx
  · intro data hd
    obtain ⟨hf, hc⟩ := C97_chunks_flatten data size hs ⟨n, hd⟩
    obtain ⟨xs, h1, h2, h3, h4⟩ := mapM_exists view flat shape size h (chunks size data) hc
    refine ⟨xs, ?_, ⟨by rw [h3, chunks_length size n hs data hd], h2⟩, ?_⟩
    · rw [viewMany, C97_items data size hs ⟨n, hd⟩]
      exact h1
    · rw [flatMany, List.flatMap_def, h4, hf]

/-- Keys and masks made of `k` polynomials of `N` coefficients. -/
theorem stores_polys (k N : Nat) (hN : N ≠ 0) :
    Stores (N * k) (viewGlweKey (α := α) N) List.flatten (Many k fun p => p.length = N) := by
  constructor
  · rintro xs ⟨hk, hx⟩
    have hlen : xs.flatten.length = N * k := by rw [flatten_length_many N xs hx, hk, Nat.mul_comm]
    exact ⟨hlen, by rw [viewGlweKey, C97_items _ N hN ⟨k, hlen⟩, chunks_flatten N hN xs hx]⟩
  · intro data hd
    obtain ⟨hf, hc⟩ := C97_chunks_flatten data N hN ⟨k, hd⟩
    exact ⟨chunks N data, by rw [viewGlweKey, C97_items data N hN ⟨k, hd⟩], ⟨chunks_length N k hN data hd, hc⟩, hf⟩

theorem stores_glwe (k N : Nat) (hN : N ≠ 0) : Stores (glweSize k N) (viewGlwe (α := α) k N) flatGlwe (GlweShape k N) := by
  have hp := stores_polys (α := α) k N hN
  constructor
  · rintro x ⟨ha, hb⟩
    obtain ⟨h1, h2⟩ := hp.1 x.a ha
    refine ⟨by rw [flatGlwe, List.length_append, h1, hb, glweSize, glweKeySize], ?_⟩
    rw [viewGlwe, flatGlwe, splitAt_app _ _ (k * N) (by rw [h1, Nat.mul_comm])]
    simp only [Option.bind_eq_bind, Option.bind_some]
    rw [viewGlweKey] at h2
    rw [h2]
    rfl
  · intro data hd
    rw [glweSize, glweKeySize] at hd
    have hu : (data.take (k * N)).length = N * k := by rw [List.length_take, Nat.mul_comm k N]; omega
    obtain ⟨a, h1, h2, h3⟩ := hp.2 _ hu
    refine ⟨⟨a, data.drop (k * N)⟩, ?_, ⟨h2, ?_⟩, ?_⟩
    · rw [viewGlwe, splitAt, if_pos (by rw [Nat.mul_comm]; omega)]
      simp only [Option.bind_eq_bind, Option.bind_some]
      rw [viewGlweKey] at h1
      rw [h1]
      rfl
    · simp only [List.length_drop]
      rw [Nat.mul_comm]; omega
    · simp only [flatGlwe]
      rw [h3, List.take_append_drop]

theorem glweSize_ne (k N : Nat) (hN : N ≠ 0) : glweSize k N ≠ 0 := by rw [glweSize]; omega
theorem mul_ne {a b : Nat} (ha : a ≠ 0) (hb : b ≠ 0) : a * b ≠ 0 := Nat.mul_ne_zero ha hb

/-- C98: LWE ciphertexts, lists of them (radix decomposed ciphertexts, LWE public keys) and LWE keyswitch keys. A
slice of the length that `assert_is_valid` asks for is the same thing as a structured value of the right shape: the
accessors read every such slice without panicking, and writing what they read gives the slice back. -/
theorem C98_lwe (n l rows : Nat) (hl : l ≠ 0) :
    Stores (lweSize n) (viewLwe (α := α) n) flatLwe (LweShape n) ∧
    Stores (levSize n l) (viewLwes (α := α) n) (flatMany flatLwe) (Many l (LweShape n)) ∧
    Stores (lwePkSize n) (viewLwes (α := α) n) (flatMany flatLwe) (Many n (LweShape n)) ∧
    Stores (lweKskSize rows n l) (viewLweKsk (α := α) n l) (flatMany (flatMany flatLwe)) (Many rows (Many l (LweShape n))) := by
  have h0 : lweSize n ≠ 0 := by rw [lweSize]; omega
  have h1 := stores_lwe (α := α) n
  have h2 := stores_many _ _ _ _ l h0 h1
  exact ⟨h1, h2, stores_many _ _ _ _ n h0 h1, stores_many _ _ _ _ rows (mul_ne h0 hl) h2⟩

/-- C98: GLWE secret keys, ciphertexts, GLev and GGSW ciphertexts, bootstrapping, keyswitch, automorphism, scheme
switch, private functional keyswitch and circuit bootstrapping keys. -/
theorem C98_glwe (k N l n count : Nat) (hk : k ≠ 0) (hN : N ≠ 0) (hl : l ≠ 0) :
    Stores (glweKeySize k N) (viewGlweKey (α := α) N) List.flatten (Many k fun p => p.length = N) ∧
    Stores (glweSize k N) (viewGlwe (α := α) k N) flatGlwe (GlweShape k N) ∧
    Stores (glevSize k N l) (viewGlev (α := α) k N) (flatMany flatGlwe) (Many l (GlweShape k N)) ∧
    Stores (ggswSize k N l) (viewGgsw (α := α) k N l) (flatMany (flatMany flatGlwe)) (Many (k + 1) (Many l (GlweShape k N))) ∧
    Stores (bskSize n k N l) (viewBsk (α := α) k N l) (flatMany (flatMany (flatMany flatGlwe)))
      (Many n (Many (k + 1) (Many l (GlweShape k N)))) ∧
    Stores (glweKskSize k N l) (viewGlevs (α := α) k N l) (flatMany (flatMany flatGlwe)) (Many k (Many l (GlweShape k N))) ∧
    Stores (akSize k N l) (viewAk (α := α) k N l) (flatMany (flatMany (flatMany flatGlwe)))
      (Many N.log2 (Many k (Many l (GlweShape k N)))) ∧
    Stores (sskSize k N l) (viewGlevs (α := α) k N l) (flatMany (flatMany flatGlwe))
      (Many (k * (k + 1) / 2) (Many l (GlweShape k N))) ∧
    Stores (pfksKeySize n k N l count) (viewGlevs (α := α) k N l) (flatMany (flatMany flatGlwe))
      (Many ((n + 1) * count) (Many l (GlweShape k N))) ∧
    Stores (cbsKeySize n k N l) (viewCbsKeys (α := α) n k N l) (flatMany (flatMany (flatMany flatGlwe)))
      (Many (k + 1) (Many (n + 1) (Many l (GlweShape k N)))) := by
  have g0 := glweSize_ne k N hN
  have g1 : glevSize k N l ≠ 0 := mul_ne g0 hl
  have g2 : ggswSize k N l ≠ 0 := mul_ne g1 (by omega)
  have g3 : glweKskSize k N l ≠ 0 := mul_ne g1 hk
  have g4 : pfksKeySize n k N l 1 ≠ 0 := mul_ne (mul_ne g1 (by omega)) (by omega)
  have h1 := stores_glwe (α := α) k N hN
  have h2 := stores_many _ _ _ _ l g0 h1
  have h3 : ∀ m, Stores (glevSize k N l * m) (viewMany (glevSize k N l) (viewMany (glweSize k N) (viewGlwe (α := α) k N)))
      (flatMany (flatMany flatGlwe)) (Many m (Many l (GlweShape k N))) := fun m => stores_many _ _ _ _ m g1 h2
  refine ⟨stores_polys k N hN, h1, h2, h3 (k + 1), stores_many _ _ _ _ n g2 (h3 (k + 1)), h3 k,
    stores_many _ _ _ _ N.log2 g3 (h3 k), h3 _, ?_, ?_⟩
  · rw [pfksKeySize, Nat.mul_assoc]
    exact h3 _
  · have h4 : Stores (pfksKeySize n k N l 1) (viewGlevs (α := α) k N l) (flatMany (flatMany flatGlwe))
        (Many (n + 1) (Many l (GlweShape k N))) := by
      rw [pfksKeySize, Nat.mul_one]
      exact h3 _
    exact stores_many _ _ _ _ (k + 1) g4 h4

/-- C98: ciphertexts in the frequency domain, for even degrees. -/
theorem C98_glwe_fft (k N : Nat) (hN : 2 ∣ N) (h0 : N ≠ 0) :
    Stores (glweFftSize k N) (viewGlweFft (α := α) k N) flatGlwe (GlweShape k (N / 2)) := by
  obtain ⟨m, rfl⟩ := hN
  have e : 2 * m / 2 = m := by omega
  have h := stores_glwe (α := α) k m (by omega)
  have e1 : glweFftSize k (2 * m) = glweSize k m := by
    rw [glweFftSize, e, glweSize, glweKeySize, Nat.mul_add, Nat.mul_one]
  have e2 : viewGlweFft (α := α) k (2 * m) = viewGlwe k m := by
    funext d
    rw [viewGlweFft, viewGlwe, e, show k * (2 * m) / 2 = k * m by rw [Nat.mul_left_comm]; omega]
  rw [e1, e2, e]
  exact h

/-- C98: `check_is_valid` accepts a slice exactly when it holds a value of the right shape. -/
theorem C98_check {size : Nat} {view : List α → Option β} {flat : β → List α} {shape : β → Prop}
    (h : Stores size view flat shape) (data : List α) :
    checkIsValid data size = true ↔ ∃ x, shape x ∧ flat x = data := by
  rw [checkIsValid, beq_iff_eq]
  constructor
  · intro hd
    obtain ⟨x, _, h2, h3⟩ := h.2 data hd
    exact ⟨x, h2, h3⟩
  · rintro ⟨x, hx, rfl⟩
    exact (h.1 x hx).1

/-- C98: writing through the mutable reference to the `i`-th item changes that item and no other. -/
theorem C98_write (s n i : Nat) (hs : s ≠ 0) (hi : i < n) (data v : List α) (hd : data.length = n * s) (hv : v.length = s) :
    chunks s (data.take (i * s) ++ v ++ data.drop (i * s + s)) = (chunks s data).set i v := by
  have h1 : (i + 1) * s ≤ n * s := Nat.mul_le_mul_right _ hi
  rw [Nat.add_mul, Nat.one_mul] at h1
  have e1 : (data.take (i * s)).length = i * s := by rw [List.length_take]; omega
  have e3 : (data.drop (i * s + s)).length = (n - i - 1) * s := by
    rw [List.length_drop, hd, Nat.sub_mul, Nat.sub_mul]; omega
  have e2 : ((data.drop (i * s)).take s).length = s := by rw [List.length_take, List.length_drop]; omega
  have d3 : s ∣ (data.drop (i * s + s)).length := ⟨n - i - 1, by rw [e3, Nat.mul_comm]⟩
  have split : data = data.take (i * s) ++ ((data.drop (i * s)).take s ++ data.drop (i * s + s)) := by
    rw [← List.drop_drop, List.take_append_drop, List.take_append_drop]
  have key : ∀ w : List α, w.length = s → chunks s (data.take (i * s) ++ (w ++ data.drop (i * s + s))) =
      chunks s (data.take (i * s)) ++ (w :: chunks s (data.drop (i * s + s))) := by
    intro w hw
    have dw : s ∣ (w ++ data.drop (i * s + s)).length := by
      rw [List.length_append, hw]
      exact Nat.dvd_add (Nat.dvd_refl s) d3
    rw [chunks_append _ _ s i hs e1 dw, chunks_append _ _ s 1 hs (by rw [hw, Nat.one_mul]) d3, chunks_single s hs w hw]
    rfl
  have hl : (chunks s (data.take (i * s))).length = i := chunks_length s i hs _ (by rw [e1, Nat.mul_comm])
  rw [List.append_assoc, key v hv]
  conv_rhs => rw [split, key _ e2]
  rw [List.set_append_right _ _ (by omega), hl, Nat.sub_self]
  rfl

/-- A GGSW ciphertext for `k = 1`, `N = 2`, two digits: 16 elements, read row by row. -/
example : viewGgsw 1 2 2 (List.range 16) = some
    [[⟨[[0, 1]], [2, 3]⟩, ⟨[[4, 5]], [6, 7]⟩], [⟨[[8, 9]], [10, 11]⟩, ⟨[[12, 13]], [14, 15]⟩]] := by decide +kernel
example : ggswSize 1 2 2 = 16 ∧ viewGgsw 1 2 2 (List.range 15) = none := by decide +kernel

end Spf.Props
