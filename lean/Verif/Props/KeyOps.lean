import Verif.Model.KeyOps
import Verif.Props.Glwe
/-!
C114: arithmetic on secret keys and ciphertexts. Keys of uniformly random coefficients exist "for threshold decryption" (entities/lwe_secret_key.rs:52-56): splitting a key into additive shares must be sound.
-/
namespace Spf.Props
open Spf.Spec Spf.Tfhe
variable {R : Type} [CommRing R]

private theorem dot_key (f : R → R → R) (u : R) (hf : ∀ x y, f x y = x + u * y) : ∀ (a s t : List R), s.length = t.length →
    dotAcc a (zipAssign f s t) 0 = dotAcc a s 0 + u * dotAcc a t 0
  | [], s, t, _ => by simp [dotAcc]
  | a :: as, [], [], _ => by simp [dotAcc, zipAssign]
  | a :: as, s :: ss, t :: ts, h => by
      rw [zipAssign, dotAcc_cons, dotAcc_cons, dotAcc_cons, dot_key f u hf as ss ts (by simpa using h), hf]; ring

private theorem dot_neg : ∀ (a s : List R), dotAcc a (opNeg s) 0 = -dotAcc a s 0
  | [], s => by simp [dotAcc]
  | a :: as, [] => by simp [dotAcc, opNeg]
  | a :: as, s :: ss => by
      have := dot_neg as ss
      simp only [opNeg, List.map_cons] at this ⊢
      rw [dotAcc_cons, dotAcc_cons, this]; ring

private theorem dot_mask (f : R → R → R) (u : R) (hf : ∀ x y, f x y = x + u * y) : ∀ (s t k : List R), s.length = t.length →
    dotAcc (zipAssign f s t) k 0 = dotAcc s k 0 + u * dotAcc t k 0
  | [], [], k, _ => by simp [dotAcc, zipAssign]
  | s :: ss, t :: ts, [], h => by simp [dotAcc, zipAssign]
  | s :: ss, t :: ts, k :: ks, h => by
      rw [zipAssign, dotAcc_cons, dotAcc_cons, dotAcc_cons, dot_mask f u hf ss ts ks (by simpa using h), hf]; ring

/-- **C114, shares of an LWE key.** Decryption is affine in the key: under `s + t`, `s - t` and `-s` (keys of equal length) it is obtained from the decryptions under `s` and `t`. The body `b` of the ciphertext is public. -/
theorem C114_lwe_key (n : Nat) (hn : n ≠ 0) (ct : Lwe R) (hc : ct.a.length = n) (s t : List R) (h : s.length = t.length) :
    ∃ x y, lweDecrypt n s ct = some x ∧ lweDecrypt n t ct = some y ∧ lweDecrypt n (opAdd s t) ct = some (x + y - ct.b) ∧
      lweDecrypt n (opSub s t) ct = some (x - y + ct.b) ∧ lweDecrypt n (opNeg s) ct = some (2 * ct.b - x) := by
  refine ⟨_, _, by rw [lweDecrypt, if_pos ⟨hn, hc⟩], by rw [lweDecrypt, if_pos ⟨hn, hc⟩], ?_, ?_, ?_⟩
  · rw [lweDecrypt, if_pos ⟨hn, hc⟩, opAdd, dot_key _ 1 (fun x y => by ring) _ _ _ h]; congr 1; ring
  · rw [lweDecrypt, if_pos ⟨hn, hc⟩, opSub, dot_key _ (-1) (fun x y => by ring) _ _ _ h]; congr 1; ring
  · rw [lweDecrypt, if_pos ⟨hn, hc⟩, dot_neg]; congr 1; ring

/-- The sum of a list of key shares, as a client computes it with `+`. -/
def sumShares (n : Nat) (shares : List (List R)) : List R := shares.foldl opAdd (List.replicate n 0)

/-- **C114, threshold decryption.** For any number of key shares of `n` elements, the key that is their sum decrypts a ciphertext to the body plus the sum of the contributions `decrypt(share) - b` of the share holders. -/
theorem C114_threshold (n : Nat) (hn : n ≠ 0) (ct : Lwe R) (hc : ct.a.length = n) (shares : List (List R)) (h : ∀ s ∈ shares, s.length = n) :
    ∃ parts, List.Forall₂ (fun s x => lweDecrypt n s ct = some x) shares parts ∧
      lweDecrypt n (sumShares n shares) ct = some (ct.b + (parts.map fun x => x - ct.b).sum) := by
  have key : ∀ (shares : List (List R)) (acc : List R), acc.length = n → (∀ s ∈ shares, s.length = n) →
      (shares.foldl opAdd acc).length = n ∧ dotAcc ct.a (shares.foldl opAdd acc) 0 = dotAcc ct.a acc 0 + (shares.map fun s => dotAcc ct.a s 0).sum := by
    intro shares
    induction shares with
    | nil => intro acc ha _; exact ⟨ha, by simp⟩
    | cons s ss ih =>
      intro acc ha hs
      have h1 : s.length = n := hs s (by simp)
      have h2 : (opAdd acc s).length = n := by rw [opAdd, zipAssign_length, ha]
      obtain ⟨g1, g2⟩ := ih (opAdd acc s) h2 (fun s' h' => hs s' (by simp [h']))
      refine ⟨g1, ?_⟩
      rw [List.foldl_cons, g2, opAdd, dot_key _ 1 (fun x y => by ring) _ _ _ (by omega), List.map_cons, List.sum_cons]; ring
  have h0 : ∀ (m : Nat) (a : List R), dotAcc a (List.replicate m 0) 0 = 0 := by
    intro m
    induction m with
    | zero => intro a; cases a <;> simp [dotAcc]
    | succ m ih =>
      intro a
      cases a with
      | nil => simp [dotAcc]
      | cons a as => rw [List.replicate_succ, dotAcc_cons, ih]; ring
  refine ⟨shares.map fun s => ct.b - dotAcc ct.a s 0, ?_, ?_⟩
  · rw [List.forall₂_map_right_iff, List.forall₂_same]
    intro s _
    rw [lweDecrypt, if_pos ⟨hn, hc⟩]
  · rw [lweDecrypt, if_pos ⟨hn, hc⟩, sumShares, (key shares _ (by simp) h).2, h0, List.map_map]
    congr 1
    have e : ((fun x => x - ct.b) ∘ fun s => ct.b - dotAcc ct.a s 0) = fun s : List R => -dotAcc ct.a s 0 := by
      funext s; simp
    rw [e, zero_add, sub_eq_add_neg]
    congr 1
    clear key h
    induction shares with
    | nil => simp
    | cons s ss ih => simp only [List.map_cons, List.sum_cons]; rw [← ih]; ring

/-- **C114, a share hides the key.** For every key and every target, exactly one mask of the same length makes `key - mask` equal to the target: with a uniformly drawn mask (C113) the difference is uniform, whatever the key. -/
theorem C114_hiding (s t : List R) (h : s.length = t.length) : ∃! r : List R, r.length = s.length ∧ opSub s r = t := by
  refine ⟨opSub s t, ⟨by rw [opSub, zipAssign_length], ?_⟩, ?_⟩
  · show opSub s (opSub s t) = t
    induction s generalizing t with
    | nil => cases t with
      | nil => rfl
      | cons => simp at h
    | cons a as ih => cases t with
      | nil => simp at h
      | cons b bs =>
        simp only [opSub, zipAssign] at ih ⊢
        rw [ih bs (by simpa using h)]; simp
  · rintro r ⟨hr, e⟩
    subst e
    show r = opSub s (opSub s r)
    clear h
    induction s generalizing r with
    | nil => cases r with
      | nil => rfl
      | cons => simp at hr
    | cons a as ih => cases r with
      | nil => simp at hr
      | cons b bs =>
        simp only [opSub, zipAssign] at ih ⊢
        rw [← ih bs (by simpa using hr)]; simp

/-- **C114, reconstruction.** `(key - mask) + mask = key`. -/
theorem C114_reconstruct (s r : List R) (h : s.length = r.length) : opAdd (opSub s r) r = s := by
  induction s generalizing r with
  | nil => cases r with
    | nil => rfl
    | cons => simp at h
  | cons a as ih => cases r with
    | nil => simp at h
    | cons b bs =>
      simp only [opAdd, opSub, zipAssign] at ih ⊢
      rw [ih bs (by simpa using h)]; simp

/-- **C114, LWE ciphertexts.** The operators on ciphertexts of equal dimension act on the messages. -/
theorem C114_lwe_ciphertexts (n : Nat) (hn : n ≠ 0) (sk x y : List R) (hx : x.length = n + 1) (hy : y.length = n + 1) :
    ∃ mx my, lweDecryptFlat n sk x = some mx ∧ lweDecryptFlat n sk y = some my ∧ lweDecryptFlat n sk (opAdd x y) = some (mx + my) ∧
      lweDecryptFlat n sk (opSub x y) = some (mx - my) ∧ lweDecryptFlat n sk (opNeg x) = some (-mx) := by
  have hx' : ∃ a b, x = a ++ [b] ∧ a.length = n := by
    rcases List.eq_nil_or_concat x with rfl | ⟨a, b, rfl⟩
    · simp at hx
    · exact ⟨a, b, by simp, by simpa using hx⟩
  have hy' : ∃ a b, y = a ++ [b] ∧ a.length = n := by
    rcases List.eq_nil_or_concat y with rfl | ⟨a, b, rfl⟩
    · simp at hy
    · exact ⟨a, b, by simp, by simpa using hy⟩
  obtain ⟨a, b, rfl, ha⟩ := hx'
  obtain ⟨c, d, rfl, hc⟩ := hy'
  have dec : ∀ (a : List R) (b : R), a.length = n → lweDecryptFlat n sk (a ++ [b]) = some (b - dotAcc a sk 0) := by
    intro a b ha
    rw [lweDecryptFlat, if_pos (by simp [ha]), lweDecrypt]
    have e1 : (a ++ [b]).take n = a := by rw [← ha]; simp
    have e2 : (a ++ [b]).getD n 0 = b := by rw [← ha]; simp
    rw [e1, e2, if_pos ⟨hn, ha⟩]
  have za : ∀ f : R → R → R, zipAssign f (a ++ [b]) (c ++ [d]) = zipAssign f a c ++ [f b d] := by
    intro f
    rw [zipAssign_eq f _ _ (by simp [ha, hc]), zipAssign_eq f _ _ (by omega), List.zipWith_append (by omega)]; rfl
  refine ⟨_, _, dec a b ha, dec c d hc, ?_, ?_, ?_⟩
  · rw [opAdd, za, dec _ _ (by rw [zipAssign_length, ha]), dot_mask _ 1 (fun x y => by ring) _ _ _ (by omega)]; congr 1; ring
  · rw [opSub, za, dec _ _ (by rw [zipAssign_length, ha]), dot_mask _ (-1) (fun x y => by ring) _ _ _ (by omega)]; congr 1; ring
  · rw [opNeg, List.map_append, List.map_cons, List.map_nil, dec _ _ (by simpa using ha)]
    have : dotAcc (a.map fun a => -a) sk 0 = -dotAcc a sk 0 := by
      have hz : (a.map fun x => -x) = zipAssign (fun x y => x + (-2) * y) a a := by
        rw [zipAssign_eq _ _ _ rfl, List.zipWith_self]; apply List.map_congr_left; intro x _; ring
      rw [hz, dot_mask _ (-2) (fun x y => rfl) _ _ _ rfl]; ring
    rw [this]; congr 1; ring

/-! ### GLWE -/

private theorem polysOf_zip (f : R → R → R) (N k : Nat) (s t : List R) (h : s.length = t.length) :
    polysOf N k (zipAssign f s t) = (List.range k).map fun i => zipAssign f ((s.drop (i * N)).take N) ((t.drop (i * N)).take N) := by
  unfold polysOf
  apply List.map_congr_left
  intro i _
  rw [zipAssign_eq f s t h, List.drop_zipWith, List.take_zipWith, zipAssign_eq f _ _ (by simp [h])]

private theorem chunk_len (N k : Nat) (s : List R) (h : N * k ≤ s.length) (i : Nat) (hi : i < k) : ((s.drop (i * N)).take N).length = N := by
  rw [List.length_take, List.length_drop]
  have : N * (i + 1) ≤ N * k := Nat.mul_le_mul_left _ hi
  rw [Nat.mul_add, Nat.mul_one, Nat.mul_comm N i] at this
  omega

private theorem dotC_key {N : Nat} (g : List R → List R → List R) (u : Nega R N) (p q : Nat → List R) (hg : ∀ a b : List R, a.length = N → b.length = N → cls N (g a b) = cls N a + u * cls N b) :
    ∀ (is : List Nat) (as : List (List R)), (∀ i ∈ is, (p i).length = N ∧ (q i).length = N) →
      dotC N as (is.map fun i => g (p i) (q i)) = dotC N as (is.map p) + u * dotC N as (is.map q)
  | [], as, _ => by cases as <;> simp [dotC]
  | i :: is, [], _ => by simp [dotC]
  | i :: is, a :: as, h => by
      have h1 := h i (by simp)
      simp only [List.map_cons, dotC]
      rw [dotC_key g u p q hg is as (fun j hj => h j (by simp [hj])), hg _ _ h1.1 h1.2]; ring

private theorem dotC_mask {N : Nat} (g : List R → List R → List R) (u : Nega R N) (p q : Nat → List R) (hg : ∀ a b : List R, a.length = N → b.length = N → cls N (g a b) = cls N a + u * cls N b) :
    ∀ (is : List Nat) (ks : List (List R)), (∀ i ∈ is, (p i).length = N ∧ (q i).length = N) →
      dotC N (is.map fun i => g (p i) (q i)) ks = dotC N (is.map p) ks + u * dotC N (is.map q) ks
  | [], ks, _ => by simp [dotC]
  | i :: is, [], _ => by simp [dotC]
  | i :: is, k :: ks, h => by
      have h1 := h i (by simp)
      simp only [List.map_cons, dotC]
      rw [dotC_mask g u p q hg is ks (fun j hj => h j (by simp [hj])), hg _ _ h1.1 h1.2]; ring

private theorem cls_neg' {N : Nat} (a : List R) : cls N (opNeg a) = -cls N a := by
  have h1 := cls_addAssign (N := N) (opNeg a) a (by simp [opNeg])
  have h2 : polyAddAssign (opNeg a) a = a.map fun _ => 0 := by
    rw [polyAddAssign, zipAssign_eq _ _ _ (by simp [opNeg]), opNeg]
    clear h1
    induction a with
    | nil => rfl
    | cons x xs ih => simp only [List.map_cons, List.zipWith_cons_cons, ih]; simp
  have h3 : cls N (a.map fun _ => (0 : R)) = 0 := by
    have h4 := cls_subAssign (N := N) (a.map fun _ => (0 : R)) (a.map fun _ => (0 : R)) rfl
    have h5 : polySubAssign (a.map fun _ => (0 : R)) (a.map fun _ => (0 : R)) = a.map fun _ => (0 : R) := by
      rw [polySubAssign, zipAssign_eq _ _ _ rfl, List.zipWith_self]; simp
    rw [h5, sub_self] at h4; exact h4
  rw [h2, h3] at h1
  exact eq_neg_of_add_eq_zero_left h1.symm

private theorem dotC_neg {N : Nat} : ∀ (as ks : List (List R)), dotC N (as.map opNeg) ks = -dotC N as ks
  | [], ks => by simp [dotC]
  | a :: as, [] => by simp [dotC]
  | a :: as, k :: ks => by
      simp only [List.map_cons, dotC]
      rw [dotC_neg as ks, cls_neg']; ring

private theorem flat_valid (N k : Nat) (data : List R) (h : data.length = N * k + N) : (glweOfFlat N k data).valid k N := by
  refine ⟨by simp [glweOfFlat, polysOf], ?_, ?_⟩
  · intro p hp
    simp only [glweOfFlat, polysOf, List.mem_map, List.mem_range] at hp
    obtain ⟨i, hi, rfl⟩ := hp
    exact chunk_len N k data (by omega) i hi
  · simp only [glweOfFlat, List.length_take, List.length_drop]
    rw [Nat.mul_comm k N]; omega

private theorem key_len (N k : Nat) (s : List R) (h : s.length = N * k) : AllLen N (polysOf N k s) := by
  intro p hp
  simp only [polysOf, List.mem_map, List.mem_range] at hp
  obtain ⟨i, hi, rfl⟩ := hp
  exact chunk_len N k s (by omega) i hi

private theorem flat_dec {n k : Nat} (sk data : List R) (hs : sk.length = 2 ^ n * k) (hd : data.length = 2 ^ n * k + 2 ^ n) (m : List R) (hm : m.length = 2 ^ n) :
    glweDecryptFlat (2 ^ n) k sk data = some m ↔ cls (2 ^ n) m = cls (2 ^ n) (glweOfFlat (2 ^ n) k data).b - dotC (2 ^ n) (polysOf (2 ^ n) k data) (polysOf (2 ^ n) k sk) := by
  rw [glweDecryptFlat, if_pos hd]
  exact glweDecrypt_eq (isPow2_iff.2 ⟨n, rfl⟩) _ _ (flat_valid _ _ _ hd) (key_len _ _ _ hs) m hm

private theorem flat_dec_ex {n k : Nat} (sk data : List R) (hs : sk.length = 2 ^ n * k) (hd : data.length = 2 ^ n * k + 2 ^ n) :
    ∃ m, glweDecryptFlat (2 ^ n) k sk data = some m ∧ m.length = 2 ^ n := by
  obtain ⟨m, h1, h2, -⟩ := glweDecrypt_spec (isPow2_iff.2 ⟨n, rfl⟩) _ _ (flat_valid _ _ _ hd) (key_len _ _ _ hs)
  exact ⟨m, by rw [glweDecryptFlat, if_pos hd]; exact h1, h2⟩

private theorem add_lin {N : Nat} (a b : List R) (ha : a.length = N) (hb : b.length = N) : cls N (zipAssign (· + ·) a b) = cls N a + 1 * cls N b := by
  rw [one_mul]; exact cls_addAssign a b (by omega)

private theorem sub_lin {N : Nat} (a b : List R) (ha : a.length = N) (hb : b.length = N) : cls N (zipAssign (· - ·) a b) = cls N a + (-1) * cls N b := by
  rw [neg_one_mul, ← sub_eq_add_neg]; exact cls_subAssign a b (by omega)

/-- **C114, shares of a GLWE key.** The same for GLWE keys and any ciphertext, coefficient by coefficient. -/
theorem C114_glwe_key (n k : Nat) (s t data : List R) (hs : s.length = 2 ^ n * k) (ht : t.length = 2 ^ n * k) (hd : data.length = 2 ^ n * k + 2 ^ n) :
    ∃ x y b, b = (data.drop (k * 2 ^ n)).take (2 ^ n) ∧ x.length = 2 ^ n ∧ y.length = 2 ^ n ∧
      glweDecryptFlat (2 ^ n) k s data = some x ∧ glweDecryptFlat (2 ^ n) k t data = some y ∧
      glweDecryptFlat (2 ^ n) k (opAdd s t) data = some (List.zipWith (· - ·) (List.zipWith (· + ·) x y) b) ∧
      glweDecryptFlat (2 ^ n) k (opSub s t) data = some (List.zipWith (· + ·) (List.zipWith (· - ·) x y) b) := by
  obtain ⟨x, hx, hxl⟩ := flat_dec_ex s data hs hd
  obtain ⟨y, hy, hyl⟩ := flat_dec_ex t data ht hd
  have hbl := (flat_valid _ _ _ hd).2.2
  refine ⟨x, y, _, rfl, hxl, hyl, hx, hy, ?_, ?_⟩
  · have e := (flat_dec (opAdd s t) data (by rw [opAdd, zipAssign_length, hs]) hd (polySubAssign (polyAddAssign x y) (glweOfFlat (2 ^ n) k data).b)
      (by rw [polySubAssign, zipAssign_length, polyAddAssign, zipAssign_length, hxl])).2 (by
        rw [cls_subAssign _ _ (by rw [polyAddAssign, zipAssign_length, hxl, hbl]), cls_addAssign _ _ (by rw [hxl, hyl]),
          (flat_dec s data hs hd x hxl).1 hx, (flat_dec t data ht hd y hyl).1 hy, opAdd, polysOf_zip _ _ _ _ _ (by omega),
          dotC_key _ 1 (fun i => (s.drop (i * 2 ^ n)).take (2 ^ n)) (fun i => (t.drop (i * 2 ^ n)).take (2 ^ n)) add_lin _ _
            (fun i hi => ⟨chunk_len _ k s (by omega) i (List.mem_range.1 hi), chunk_len _ k t (by omega) i (List.mem_range.1 hi)⟩)]
        simp only [polysOf]; ring)
    rw [e, polySubAssign, polyAddAssign, zipAssign_eq _ x y (by omega), zipAssign_eq _ _ _ (by rw [List.length_zipWith, hxl, hyl, hbl, Nat.min_self])]
    rfl
  · have e := (flat_dec (opSub s t) data (by rw [opSub, zipAssign_length, hs]) hd (polyAddAssign (polySubAssign x y) (glweOfFlat (2 ^ n) k data).b)
      (by rw [polyAddAssign, zipAssign_length, polySubAssign, zipAssign_length, hxl])).2 (by
        rw [cls_addAssign _ _ (by rw [polySubAssign, zipAssign_length, hxl, hbl]), cls_subAssign _ _ (by rw [hxl, hyl]),
          (flat_dec s data hs hd x hxl).1 hx, (flat_dec t data ht hd y hyl).1 hy, opSub, polysOf_zip _ _ _ _ _ (by omega),
          dotC_key _ (-1) (fun i => (s.drop (i * 2 ^ n)).take (2 ^ n)) (fun i => (t.drop (i * 2 ^ n)).take (2 ^ n)) sub_lin _ _
            (fun i hi => ⟨chunk_len _ k s (by omega) i (List.mem_range.1 hi), chunk_len _ k t (by omega) i (List.mem_range.1 hi)⟩)]
        simp only [polysOf]; ring)
    rw [e, polySubAssign, polyAddAssign, zipAssign_eq _ x y (by omega), zipAssign_eq _ _ _ (by rw [List.length_zipWith, hxl, hyl, hbl, Nat.min_self])]
    rfl

/-- **C114, GLWE ciphertexts.** The operators on ciphertexts of equal shape act on the messages, coefficient by coefficient. -/
theorem C114_glwe_ciphertexts (n k : Nat) (sk c d : List R) (hs : sk.length = 2 ^ n * k) (hc : c.length = 2 ^ n * k + 2 ^ n) (hd : d.length = 2 ^ n * k + 2 ^ n) :
    ∃ x y, x.length = 2 ^ n ∧ y.length = 2 ^ n ∧ glweDecryptFlat (2 ^ n) k sk c = some x ∧ glweDecryptFlat (2 ^ n) k sk d = some y ∧
      glweDecryptFlat (2 ^ n) k sk (opAdd c d) = some (List.zipWith (· + ·) x y) ∧
      glweDecryptFlat (2 ^ n) k sk (opSub c d) = some (List.zipWith (· - ·) x y) ∧
      glweDecryptFlat (2 ^ n) k sk (opNeg c) = some (x.map fun a => -a) := by
  obtain ⟨x, hx, hxl⟩ := flat_dec_ex sk c hs hc
  obtain ⟨y, hy, hyl⟩ := flat_dec_ex sk d hs hd
  have hx' := (flat_dec sk c hs hc x hxl).1 hx
  have hy' := (flat_dec sk d hs hd y hyl).1 hy
  have hb : ∀ f : R → R → R, (glweOfFlat (2 ^ n) k (zipAssign f c d)).b = zipAssign f (glweOfFlat (2 ^ n) k c).b (glweOfFlat (2 ^ n) k d).b := by
    intro f
    simp only [glweOfFlat]
    rw [zipAssign_eq f c d (by omega), List.drop_zipWith, List.take_zipWith, zipAssign_eq f _ _ (by simp [hc, hd])]
  have l1 := (flat_valid _ _ _ hc).2.2
  have l2 := (flat_valid _ _ _ hd).2.2
  have hch : ∀ i ∈ List.range k, ((c.drop (i * 2 ^ n)).take (2 ^ n)).length = 2 ^ n ∧ ((d.drop (i * 2 ^ n)).take (2 ^ n)).length = 2 ^ n :=
    fun i hi => ⟨chunk_len _ k c (by omega) i (List.mem_range.1 hi), chunk_len _ k d (by omega) i (List.mem_range.1 hi)⟩
  refine ⟨x, y, hxl, hyl, hx, hy, ?_, ?_, ?_⟩
  · rw [← zipAssign_eq (· + ·) x y (by omega)]
    refine (flat_dec sk (opAdd c d) hs (by rw [opAdd, zipAssign_length, hc]) _ (by rw [zipAssign_length, hxl])).2 ?_
    rw [add_lin x y hxl hyl, hx', hy', opAdd, hb, add_lin _ _ l1 l2, polysOf_zip _ _ _ _ _ (by omega), dotC_mask _ 1 _ _ add_lin _ _ hch]
    simp only [polysOf]; ring
  · rw [← zipAssign_eq (· - ·) x y (by omega)]
    refine (flat_dec sk (opSub c d) hs (by rw [opSub, zipAssign_length, hc]) _ (by rw [zipAssign_length, hxl])).2 ?_
    rw [sub_lin x y hxl hyl, hx', hy', opSub, hb, sub_lin _ _ l1 l2, polysOf_zip _ _ _ _ _ (by omega), dotC_mask _ (-1) _ _ sub_lin _ _ hch]
    simp only [polysOf]; ring
  · refine (flat_dec sk (opNeg c) hs (by simp [opNeg, hc]) _ (by simp [hxl])).2 ?_
    have e1 : cls (2 ^ n) (x.map fun a => -a) = -cls (2 ^ n) x := cls_neg' x
    have e2 : cls (2 ^ n) (glweOfFlat (2 ^ n) k (opNeg c)).b = -cls (2 ^ n) (glweOfFlat (2 ^ n) k c).b := by
      rw [← cls_neg']
      simp only [glweOfFlat, opNeg, List.map_drop, List.map_take]
    have e3 : polysOf (2 ^ n) k (opNeg c) = (polysOf (2 ^ n) k c).map opNeg := by
      simp only [polysOf, opNeg, List.map_drop, List.map_take, List.map_map, Function.comp_def]
    rw [e1, e2, hx', e3, dotC_neg]; ring

/-- non-vacuity: a key, a mask, the share, and a ciphertext of 9. -/
example : opSub (R := BitVec 8) [1, 0, 1] [200, 7, 100] = [57, 249, 157] ∧ opAdd (R := BitVec 8) [57, 249, 157] [200, 7, 100] = [1, 0, 1] ∧
    lweDecrypt (R := BitVec 8) 3 [1, 0, 1] ⟨[3, 4, 5], 17⟩ = some 9 ∧ lweDecrypt (R := BitVec 8) 3 [57, 249, 157] ⟨[3, 4, 5], 17⟩ = some 113 ∧
    lweDecrypt (R := BitVec 8) 3 [200, 7, 100] ⟨[3, 4, 5], 17⟩ = some 169 ∧ (113 + 169 - 17 : BitVec 8) = 9 := by decide

/-- **C114 is violated for operands of different lengths**: no operator refuses them; the surplus of the left operand is kept, that of the right one is dropped, so that the operators are not even commutative. -/
theorem C114_lengths_violated (s t u : List R) (h : s.length = t.length) :
    opAdd (s ++ u) t = opAdd s t ++ u ∧ opAdd s (t ++ u) = opAdd s t := by
  induction s generalizing t with
  | nil => cases t with
    | nil => cases u <;> simp [opAdd, zipAssign]
    | cons => simp at h
  | cons a as ih => cases t with
    | nil => simp at h
    | cons b bs =>
      have := ih bs (by simpa using h)
      simp only [opAdd, List.cons_append, zipAssign] at this ⊢
      exact ⟨by rw [this.1], by rw [this.2]⟩

end Spf.Props
