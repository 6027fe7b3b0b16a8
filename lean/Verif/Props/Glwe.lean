import Verif.Proof.Glwe
import Verif.Props.Torus
import Verif.Props.Poly
/-!
C49 sample extraction, C50 LWE, C51 GLWE encryption/decryption, C52 linear operations.  Keys, masks, messages, noise and
previous buffer contents are arbitrary; `N` is any power of two and `k` any number of mask polynomials.
-/
namespace Spf.Props
open Spf.Spec Spf.Tfhe
variable {R : Type} [CommRing R]

/-- A GLWE secret key for parameters `k`, `N`: `k` polynomials of `N` coefficients. -/
def KeyFor (sk : List (List R)) (k N : Nat) : Prop := sk.length = k ∧ ∀ s ∈ sk, s.length = N

/-! ### C50 -/

/-- **C50.** Whatever the buffer held, decrypting an encryption of `msg` with noise `e` gives `msg + e`. -/
theorem C50_lwe (n : Nat) (hn : n ≠ 0) (buf : Lwe R) (sk draws : List R) (msg e : R) (hb : buf.a.length = n)
    (hs : sk.length = n) (hd : draws.length = n) :
    ∃ ct, lweEncrypt n buf sk msg draws e = some ct ∧ ct.a = draws ∧ lweDecrypt n sk ct = some (msg + e) := by
  obtain ⟨h1, h2⟩ := lweEncLoop_spec buf.a sk draws 0 (by omega) (by omega)
  refine ⟨_, by rw [lweEncrypt, if_pos hn], h1, ?_⟩
  rw [lweDecrypt, if_pos ⟨hn, by simp only [h1, hd]⟩]
  simp only [h1, h2]
  congr 1
  ring

/-- **C50, decoded.** Hence the message comes back for every noise within half an encoding step. -/
theorem C50_lwe_decode (W p n : Nat) (hp0 : 0 < p) (hp : p < W) (hp32 : p < 32) (hn : n ≠ 0) (buf : Lwe (BitVec W))
    (sk draws : List (BitVec W)) (m : Nat) (hm : m < 2 ^ p) (e : Int) (he : -(2 ^ (W - p - 1) : Int) ≤ e)
    (he' : e < 2 ^ (W - p - 1)) (hb : buf.a.length = n) (hs : sk.length = n) (hd : draws.length = n) :
    ∃ c ct t, encode (BitVec.ofNat W m) p = some c ∧ lweEncrypt n buf sk c draws (BitVec.ofInt W e) = some ct ∧
      lweDecrypt n sk ct = some t ∧ decode t p = some (BitVec.ofNat W m) := by
  obtain ⟨c, h1, h2⟩ := C44_decode_encode_partial W p hp0 hp hp32 m hm e he he'
  obtain ⟨ct, h3, _, h4⟩ := C50_lwe n hn buf sk draws c (BitVec.ofInt W e) hb hs hd
  exact ⟨c, ct, _, h1, h3, h4, h2⟩

/-- a concrete case, buffer reused -/
example : lweEncrypt 2 ⟨[9#64, 9], 9⟩ [1, 0] 100 [7, 8] 3 = some ⟨[7#64, 8], 110⟩ ∧
    lweDecrypt 2 [1#64, 0] ⟨[7, 8], 110⟩ = some 103 := by decide

/-- **C50, trivial encryption** decrypts to the message under every key. -/
theorem C50_trivial (n : Nat) (hn : n ≠ 0) (buf : Lwe R) (sk : List R) (msg : R) (hb : buf.a.length = n) :
    ∃ ct, lweTrivial n buf msg = some ct ∧ lweDecrypt n sk ct = some msg := by
  refine ⟨_, by rw [lweTrivial, if_pos ⟨hn, hb⟩], ?_⟩
  rw [lweDecrypt, if_pos ⟨hn, by simp [hb]⟩]
  simp only [dotAcc_zero, sub_zero]

/-! ### C51 -/

private theorem enc_general {k N : Nat} (hN : isPow2 N = true) (buf : Glwe R) (msg : List R) (sk masks : List (List R))
    (noise : Option (List R)) (hbuf : buf.valid k N) (hm : msg.length = N) (hsk : KeyFor sk k N) (hma : KeyFor masks k N)
    (hno : ∀ e, noise = some e → e.length = N) :
    ∃ ct, glweEncrypt N buf msg sk masks noise = some ct ∧ ct.a = masks ∧ ct.valid k N ∧
      glweDecrypt ct sk = some (List.zipWith (· + ·) buf.b (List.zipWith (· + ·) msg (noise.getD (List.replicate N 0)))) := by
  obtain ⟨tmp, h1, h2, h3⟩ := madAll_spec hN masks sk (List.replicate N 0) hma.2 hsk.2 (by simp)
  have hA : zipAssign (fun _ m => m) buf.a masks = masks := by
    rw [zipAssign_eq _ _ _ (by rw [hbuf.1, hma.1])]
    apply List.ext_getElem
    · simp [hbuf.1, hma.1]
    · intro i _ _; simp
  have hb := hbuf.2.2
  refine ⟨_, by rw [glweEncrypt, h1], hA, ⟨by rw [hA]; exact hma.1, by rw [hA]; exact hma.2, ?_⟩, ?_⟩
  · cases noise <;> simp [addNoise, polyAddAssign, zipAssign_length, hb]
  · have hlen : ∀ e : List R, e.length = N → (List.zipWith (· + ·) msg e).length = N := by intro e he; simp; omega
    have hv : Glwe.valid ⟨zipAssign (fun _ m => m) buf.a masks,
        addNoise (polyAddAssign (polyAddAssign buf.b tmp) msg) noise⟩ k N := by
      refine ⟨by rw [hA]; exact hma.1, by rw [hA]; exact hma.2, ?_⟩
      cases noise <;> simp [addNoise, polyAddAssign, zipAssign_length, hb]
    have hnl : (noise.getD (List.replicate N 0)).length = N := by
      cases noise with
      | none => simp
      | some e => exact hno e rfl
    refine (glweDecrypt_eq hN _ sk hv hsk.2 _ ?_).mpr ?_
    · simp [hb, hnl, hm]
    · rw [cls_zipWith_add _ _ _ (by rw [hlen _ hnl]; exact hb), cls_zipWith_add _ _ _ (by omega)]
      simp only [hA]
      have hl1 : (polyAddAssign buf.b tmp).length = N := by simp [polyAddAssign, zipAssign_length, hb]
      have hl2 : (polyAddAssign (polyAddAssign buf.b tmp) msg).length = N := by simp [polyAddAssign, zipAssign_length, hb]
      have e1 : cls N (polyAddAssign (polyAddAssign buf.b tmp) msg) = cls N buf.b + dotC N masks sk + cls N msg := by
        rw [cls_addAssign _ _ (by omega), cls_addAssign _ _ (by omega), h3, cls_replicate_zero]; ring
      cases noise with
      | none => simp only [Option.getD_none, addNoise]; rw [e1, cls_replicate_zero]; ring
      | some e =>
        simp only [Option.getD_some, addNoise]
        rw [cls_addAssign _ _ (by rw [hl2]; exact (hno e rfl).symm), e1]; ring

/-- **C51, fresh buffer.** Encrypting into a zeroed ciphertext and decrypting gives message plus noise, coefficient by
coefficient (`noise = none` stands for a standard deviation of zero). -/
theorem C51_glwe_partial (n k : Nat) (buf : Glwe R) (msg : List R) (sk masks : List (List R)) (noise : Option (List R))
    (hbuf : buf.valid k (2 ^ n)) (hzero : buf.b = List.replicate (2 ^ n) 0) (hm : msg.length = 2 ^ n) (hsk : KeyFor sk k (2 ^ n))
    (hma : KeyFor masks k (2 ^ n)) (hno : ∀ e, noise = some e → e.length = 2 ^ n) :
    ∃ ct, glweEncrypt (2 ^ n) buf msg sk masks noise = some ct ∧ ct.a = masks ∧ ct.valid k (2 ^ n) ∧
      glweDecrypt ct sk = some (List.zipWith (· + ·) msg (noise.getD (List.replicate (2 ^ n) 0))) := by
  obtain ⟨ct, h1, h2, h3, h4⟩ := enc_general (isPow2_iff.mpr ⟨n, rfl⟩) buf msg sk masks noise hbuf hm hsk hma hno
  refine ⟨ct, h1, h2, h3, ?_⟩
  rw [h4, hzero]
  congr 1
  have hnl : (noise.getD (List.replicate (2 ^ n) 0)).length = 2 ^ n := by
    cases noise with
    | none => simp
    | some e => exact hno e rfl
  apply List.ext_getElem
  · simp [hm, hnl]
  · intro i _ _; simp

/-- **C51, what happens with a reused buffer**: the old body is added to the decryption. -/
theorem C51_reused_buffer (n k : Nat) (buf : Glwe R) (msg : List R) (sk masks : List (List R)) (noise : Option (List R))
    (hbuf : buf.valid k (2 ^ n)) (hm : msg.length = 2 ^ n) (hsk : KeyFor sk k (2 ^ n)) (hma : KeyFor masks k (2 ^ n))
    (hno : ∀ e, noise = some e → e.length = 2 ^ n) :
    ∃ ct, glweEncrypt (2 ^ n) buf msg sk masks noise = some ct ∧
      glweDecrypt ct sk = some (List.zipWith (· + ·) buf.b (List.zipWith (· + ·) msg (noise.getD (List.replicate (2 ^ n) 0)))) := by
  obtain ⟨ct, h1, _, _, h4⟩ := enc_general (isPow2_iff.mpr ⟨n, rfl⟩) buf msg sk masks noise hbuf hm hsk hma hno
  exact ⟨ct, h1, h4⟩

/-- **C51, violation**: for every nonzero old body, every key, message and noise, re-encrypting into the buffer does not
decrypt to message plus noise. -/
theorem C51_reused_buffer_violated (n k : Nat) (buf : Glwe R) (msg : List R) (sk masks : List (List R)) (noise : Option (List R))
    (hbuf : buf.valid k (2 ^ n)) (hdirty : ∃ x ∈ buf.b, x ≠ 0) (hm : msg.length = 2 ^ n) (hsk : KeyFor sk k (2 ^ n))
    (hma : KeyFor masks k (2 ^ n)) (hno : ∀ e, noise = some e → e.length = 2 ^ n) :
    ∃ ct, glweEncrypt (2 ^ n) buf msg sk masks noise = some ct ∧
      glweDecrypt ct sk ≠ some (List.zipWith (· + ·) msg (noise.getD (List.replicate (2 ^ n) 0))) := by
  obtain ⟨ct, h1, h2⟩ := C51_reused_buffer n k buf msg sk masks noise hbuf hm hsk hma hno
  refine ⟨ct, h1, ?_⟩
  rw [h2]
  intro h
  obtain ⟨x, hx, hx0⟩ := hdirty
  obtain ⟨i, hi, rfl⟩ := List.getElem_of_mem hx
  have hlen : (List.zipWith (· + ·) msg (noise.getD (List.replicate (2 ^ n) 0))).length = 2 ^ n := by
    have : (noise.getD (List.replicate (2 ^ n) 0)).length = 2 ^ n := by
      cases noise with
      | none => simp
      | some e => exact hno e rfl
    simp [hm, this]
  generalize List.zipWith (· + ·) msg (noise.getD (List.replicate (2 ^ n) 0)) = y at h hlen
  have hbl := hbuf.2.2
  have h' := congrArg (fun l => l[i]?) (Option.some.inj h)
  simp only [List.getElem?_zipWith, List.getElem?_eq_getElem hi, List.getElem?_eq_getElem (show i < y.length by omega)] at h'
  exact hx0 (by simpa using h')

/-- a concrete case of each: encrypt (5, 6) with key 1 + X and mask (3, 4); first fresh, then over the result -/
example : glweEncrypt 2 ⟨[[0, 0]], [0, 0]⟩ [5#64, 6] [[1, 1]] [[3, 4]] (some [1, 1]) = some ⟨[[3, 4]], [5, 14]⟩ ∧
    glweDecrypt ⟨[[3, 4]], [5, 14]⟩ [[1#64, 1]] = some [6, 7] ∧
    (glweEncrypt 2 ⟨[[3, 4]], [5, 14]⟩ [5#64, 6] [[1, 1]] [[3, 4]] (some [1, 1])).bind (glweDecrypt · [[1, 1]]) = some [11, 21] ∧
    Glwe.valid (R := BitVec 64) ⟨[[3, 4]], [5, 14]⟩ 1 (2 ^ 1) := by
  refine ⟨by decide, by decide, by decide, rfl, by simp, rfl⟩

/-! ### C52 -/

/-- **C52, addition.** -/
theorem C52_add (n k : Nat) (a b : Glwe R) (sk : List (List R)) (ha : a.valid k (2 ^ n)) (hb : b.valid k (2 ^ n)) (hsk : KeyFor sk k (2 ^ n)) :
    ∃ c ma mb, glweAdd a b = some c ∧ c.valid k (2 ^ n) ∧ glweDecrypt a sk = some ma ∧ glweDecrypt b sk = some mb ∧
      glweDecrypt c sk = some (List.zipWith (· + ·) ma mb) := by
  have hN : isPow2 (2 ^ n) = true := isPow2_iff.mpr ⟨n, rfl⟩
  obtain ⟨xs, y, h1, h2, hv, ma, mb, mc, h3, h4, h5, l1, l2, l3, h6⟩ := lin_decrypt hN (lin_add (2 ^ n)) a b sk ha hb hsk.2
  refine ⟨⟨xs, y⟩, ma, mb, by rw [glweAdd, h1, h2], hv, h3, h4, ?_⟩
  rw [h5]; congr 1
  apply cls_inj (2 ^ n) _ _ l3 (by simp; omega)
  rw [h6, cls_zipWith_add _ _ _ (by omega)]; ring

/-- **C52, subtraction.** -/
theorem C52_sub (n k : Nat) (a b : Glwe R) (sk : List (List R)) (ha : a.valid k (2 ^ n)) (hb : b.valid k (2 ^ n)) (hsk : KeyFor sk k (2 ^ n)) :
    ∃ c ma mb, glweSub a b = some c ∧ c.valid k (2 ^ n) ∧ glweDecrypt a sk = some ma ∧ glweDecrypt b sk = some mb ∧
      glweDecrypt c sk = some (List.zipWith (· - ·) ma mb) := by
  have hN : isPow2 (2 ^ n) = true := isPow2_iff.mpr ⟨n, rfl⟩
  obtain ⟨xs, y, h1, h2, hv, ma, mb, mc, h3, h4, h5, l1, l2, l3, h6⟩ := lin_decrypt hN (lin_sub (2 ^ n)) a b sk ha hb hsk.2
  refine ⟨⟨xs, y⟩, ma, mb, by rw [glweSub, h1, h2], hv, h3, h4, ?_⟩
  rw [h5]; congr 1
  apply cls_inj (2 ^ n) _ _ l3 (by simp; omega)
  rw [h6, cls_zipWith_sub _ _ _ (by omega)]; ring

/-- **C52, polynomial multiply-accumulate**: the decryption is `mc + ma * p` in `R[X]/(X^N+1)` (computed by the
multiply-accumulate of C47). -/
theorem C52_poly_mad (n k : Nat) (c a : Glwe R) (p : List R) (sk : List (List R)) (hc : c.valid k (2 ^ n)) (ha : a.valid k (2 ^ n))
    (hp : p.length = 2 ^ n) (hsk : KeyFor sk k (2 ^ n)) :
    ∃ d mc ma, glwePolyMad c a p = some d ∧ d.valid k (2 ^ n) ∧ glweDecrypt c sk = some mc ∧ glweDecrypt a sk = some ma ∧
      glweDecrypt d sk = polyMad mc ma p ∧ (glweDecrypt d sk).isSome := by
  have hN : isPow2 (2 ^ n) = true := isPow2_iff.mpr ⟨n, rfl⟩
  obtain ⟨xs, y, h1, h2, hv, ma, mb, mc, h3, h4, h5, l1, l2, l3, h6⟩ := lin_decrypt hN (lin_mad hN p hp) c a sk hc ha hsk.2
  refine ⟨⟨xs, y⟩, ma, mb, by rw [glwePolyMad, h1, h2], hv, h3, h4, ?_, by rw [h5]; rfl⟩
  obtain ⟨q, e1, e2, e3⟩ := polyMad_spec ma mb p hN l1 l2 hp
  rw [h5, e1]; congr 1
  apply cls_inj (2 ^ n) _ _ l3 e2
  rw [h6, e3]; ring

/-- **C52, scaling.** -/
theorem C52_scalar_mad (n k : Nat) (c a : Glwe R) (s : R) (sk : List (List R)) (hc : c.valid k (2 ^ n)) (ha : a.valid k (2 ^ n))
    (hsk : KeyFor sk k (2 ^ n)) :
    ∃ d mc ma, glweScalarMad c a s = some d ∧ d.valid k (2 ^ n) ∧ glweDecrypt c sk = some mc ∧ glweDecrypt a sk = some ma ∧
      glweDecrypt d sk = some (List.zipWith (fun x y => x + y * s) mc ma) := by
  have hN : isPow2 (2 ^ n) = true := isPow2_iff.mpr ⟨n, rfl⟩
  obtain ⟨xs, y, h1, h2, hv, ma, mb, mc, h3, h4, h5, l1, l2, l3, h6⟩ := lin_decrypt hN (lin_scalar (2 ^ n) s) c a sk hc ha hsk.2
  refine ⟨⟨xs, y⟩, ma, mb, by rw [glweScalarMad, h1, ← Option.some.inj h2], hv, h3, h4, ?_⟩
  rw [h5]; congr 1
  apply cls_inj (2 ^ n) _ _ l3 (by simp; omega)
  have := cls_scalarMad (2 ^ n) ma mb s (by omega)
  rw [polyScalarMad, zipAssign_eq _ _ _ (by omega)] at this
  rw [h6, this]; ring

private theorem dotC_map {N : Nat} (f : List R → List R) (u : Nega R N) (hf : ∀ p : List R, p.length = N → cls N (f p) = u * cls N p) :
    ∀ (as sk : List (List R)), AllLen N as → dotC N (as.map f) sk = u * dotC N as sk
  | [], sk, _ => by simp [dotC]
  | a :: as, [], _ => by simp [dotC]
  | a :: as, s :: ss, h => by
    rw [List.map_cons, dotC, dotC, dotC_map f u hf as ss h.cons.2, hf a h.cons.1]; ring

/-- **C52, negation.** -/
theorem C52_neg (n k : Nat) (a : Glwe R) (sk : List (List R)) (ha : a.valid k (2 ^ n)) (hsk : KeyFor sk k (2 ^ n)) :
    ∃ ma, glweDecrypt a sk = some ma ∧ (glweNeg a).valid k (2 ^ n) ∧ glweDecrypt (glweNeg a) sk = some (ma.map fun x => -x) := by
  have hN : isPow2 (2 ^ n) = true := isPow2_iff.mpr ⟨n, rfl⟩
  obtain ⟨ma, h1, h2, h3⟩ := glweDecrypt_spec hN a sk ha hsk.2
  have hv : (glweNeg a).valid k (2 ^ n) := by
    refine ⟨by simp [glweNeg, ha.1], ?_, by simp [glweNeg, polyNegate, ha.2.2]⟩
    intro p hp
    simp only [glweNeg, List.mem_map] at hp
    obtain ⟨q, hq, rfl⟩ := hp
    simp [polyNegate, ha.2.1 q hq]
  refine ⟨ma, h1, hv, ?_⟩
  rw [glweDecrypt_eq hN _ sk hv hsk.2 _ (by simp [h2]), cls_neg, h3]
  simp only [glweNeg]
  rw [dotC_map polyNegate (-1) (fun p _ => by rw [polyNegate, cls_neg]; ring) a.a sk ha.2.1, polyNegate, cls_neg]; ring

/-- **C52, torus rotation**: adding an amount to the body adds it to every decrypted coefficient. -/
theorem C52_rotate (n k : Nat) (a : Glwe R) (amount : R) (sk : List (List R)) (ha : a.valid k (2 ^ n)) (hsk : KeyFor sk k (2 ^ n)) :
    ∃ ma, glweDecrypt a sk = some ma ∧ (glweRotate a amount).valid k (2 ^ n) ∧
      glweDecrypt (glweRotate a amount) sk = some (ma.map (· + amount)) := by
  have hN : isPow2 (2 ^ n) = true := isPow2_iff.mpr ⟨n, rfl⟩
  obtain ⟨ma, h1, h2, h3⟩ := glweDecrypt_spec hN a sk ha hsk.2
  have hv : (glweRotate a amount).valid k (2 ^ n) := ⟨ha.1, ha.2.1, by simp [glweRotate, ha.2.2]⟩
  refine ⟨ma, h1, hv, ?_⟩
  have key : ∀ l : List R, l.length = 2 ^ n → l.map (· + amount) = List.zipWith (· + ·) l (List.replicate (2 ^ n) amount) := by
    intro l hl
    apply List.ext_getElem
    · simp [hl]
    · intro i _ _; simp
  rw [glweDecrypt_eq hN _ sk hv hsk.2 _ (by simp [h2]), key ma h2, cls_zipWith_add _ _ _ (by simp [h2]), h3]
  simp only [glweRotate]
  rw [key a.b ha.2.2, cls_zipWith_add _ _ _ (by simp [ha.2.2])]; ring

private theorem mapM_mono {N : Nat} (hN : 0 < N) (d : Int) : ∀ l : List (List R), AllLen N l →
    ∃ l', l.mapM (fun p => mulByMonomial p d) = some l' ∧ l'.length = l.length ∧ AllLen N l' ∧
      (∀ sk, (0 ≤ d → dotC N l' sk = xcls N ^ d.toNat * dotC N l sk) ∧ (d < 0 → xcls N ^ (-d).toNat * dotC N l' sk = dotC N l sk))
  | [], _ => ⟨[], rfl, rfl, by simp [AllLen], fun sk => by simp [dotC]⟩
  | p :: l, h => by
    obtain ⟨l', h1, h2, h3, h4⟩ := mapM_mono hN d l h.cons.2
    have hp : p ≠ [] := by
      intro e
      have := h.cons.1
      rw [e] at this; simp at this; omega
    obtain ⟨q, e1, e2, e3, e4⟩ := C46_rotation p d hp
    have hpl := h.cons.1
    rw [hpl] at e2 e3 e4
    refine ⟨q :: l', by rw [List.mapM_cons, e1, h1]; rfl, by simp [h2], ?_, ?_⟩
    · intro r hr
      rcases List.mem_cons.mp hr with rfl | hr
      · exact e2
      · exact h3 r hr
    · intro sk
      cases sk with
      | nil => simp [dotC]
      | cons s ss =>
        simp only [dotC]
        refine ⟨fun hd => ?_, fun hd => ?_⟩
        · rw [(h4 ss).1 hd, e3 hd]; ring
        · rw [← (h4 ss).2 hd, ← e4 hd]; ring

/-- **C52, monomial rotation** of a ciphertext rotates the decryption the same way. -/
theorem C52_monomial (n k : Nat) (a : Glwe R) (d : Int) (sk : List (List R)) (ha : a.valid k (2 ^ n)) (hsk : KeyFor sk k (2 ^ n)) :
    ∃ c ma, glweMonomial a d = some c ∧ c.valid k (2 ^ n) ∧ glweDecrypt a sk = some ma ∧
      glweDecrypt c sk = mulByMonomial ma d ∧ (glweDecrypt c sk).isSome := by
  have hN : isPow2 (2 ^ n) = true := isPow2_iff.mpr ⟨n, rfl⟩
  have hpos := Nat.two_pow_pos n
  obtain ⟨ma, h1, h2, h3⟩ := glweDecrypt_spec hN a sk ha hsk.2
  obtain ⟨as', e1, e2, e3, e4⟩ := mapM_mono hpos d a.a ha.2.1
  have hne : ∀ l : List R, l.length = 2 ^ n → l ≠ [] := by
    intro l hl e; rw [e] at hl; simp at hl; omega
  obtain ⟨b', f1, f2, f3, f4⟩ := C46_rotation a.b d (hne _ ha.2.2)
  obtain ⟨m', g1, g2, g3, g4⟩ := C46_rotation ma d (hne _ h2)
  rw [ha.2.2] at f2 f3 f4
  rw [h2] at g2 g3 g4
  have hv : Glwe.valid ⟨as', b'⟩ k (2 ^ n) := ⟨by rw [e2]; exact ha.1, e3, f2⟩
  have hdec : glweDecrypt ⟨as', b'⟩ sk = some m' := by
    rw [glweDecrypt_eq hN _ sk hv hsk.2 _ g2]
    simp only
    rcases Int.lt_or_le d 0 with hd | hd
    · apply xpow_cancel hpos (-d).toNat
      rw [g4 hd, mul_sub, f4 hd, (e4 sk).2 hd, h3]
    · rw [g3 hd, h3, f3 hd, (e4 sk).1 hd]; ring
  exact ⟨⟨as', b'⟩, ma, by rw [glweMonomial, e1, f1], hv, h1, by rw [hdec, g1], by rw [hdec]; rfl⟩

/-- **C52, LWE.** Addition, subtraction, scaling and rotation of LWE ciphertexts. -/
theorem C52_lwe (n : Nat) (hn : n ≠ 0) (c a : Lwe R) (s : R) (sk : List R) (hc : c.a.length = n) (ha : a.a.length = n) :
    ∃ mc ma, lweDecrypt n sk c = some mc ∧ lweDecrypt n sk a = some ma ∧
      (lweAdd c a).bind (lweDecrypt n sk) = some (mc + ma) ∧ (lweSub c a).bind (lweDecrypt n sk) = some (mc - ma) ∧
      (lweScalarMad c s a).bind (lweDecrypt n sk) = some (mc + ma * s) ∧ (lweRotate n c s).bind (lweDecrypt n sk) = some (mc + s) := by
  refine ⟨_, _, by rw [lweDecrypt, if_pos ⟨hn, hc⟩], by rw [lweDecrypt, if_pos ⟨hn, ha⟩], ?_, ?_, ?_, ?_⟩
  · rw [lweAdd, if_pos (by omega)]
    simp only [Option.bind_some, lweDecrypt]
    rw [if_pos ⟨hn, by rw [zipAssign_length]; exact hc⟩, dotAcc_add _ _ _ (by omega)]; congr 1; ring
  · rw [lweSub, if_pos (by omega)]
    simp only [Option.bind_some, lweDecrypt]
    rw [if_pos ⟨hn, by simp; omega⟩, dotAcc_sub _ _ _ (by omega)]; congr 1; ring
  · rw [lweScalarMad, if_pos (by omega)]
    simp only [Option.bind_some, lweDecrypt]
    rw [if_pos ⟨hn, by rw [zipAssign_length]; exact hc⟩, dotAcc_mad _ _ _ _ (by omega)]; congr 1; ring
  · rw [lweRotate, if_pos hc]
    simp only [Option.bind_some, lweDecrypt]
    rw [if_pos ⟨hn, hc⟩]; congr 1; ring

/-- concrete ciphertexts meeting the hypotheses -/
example : Glwe.valid (R := BitVec 64) ⟨[[3, 4], [5, 6]], [5, 14]⟩ 2 (2 ^ 1) ∧ KeyFor (R := BitVec 64) [[1, 0], [0, 1]] 2 (2 ^ 1) := by
  refine ⟨⟨rfl, by simp, rfl⟩, rfl, by simp⟩

/-! ### C49 -/

/-- **C49.** Extracting coefficient `h` and decrypting under the flattened key gives coefficient `h` of the decryption. -/
theorem C49_sample_extract (n k h : Nat) (hk : 0 < k) (hh : h < 2 ^ n) (ct : Glwe R) (sk : List (List R)) (hct : ct.valid k (2 ^ n))
    (hsk : KeyFor sk k (2 ^ n)) :
    ∃ l m, sampleExtract (2 ^ n) h ct = some l ∧ glweDecrypt ct sk = some m ∧ m.length = 2 ^ n ∧
      (lweDecrypt (k * 2 ^ n) (toLweKey sk) l = m[h]?) ∧ (m[h]?).isSome := by
  have hN : isPow2 (2 ^ n) = true := isPow2_iff.mpr ⟨n, rfl⟩
  obtain ⟨q, e1, e2, e3⟩ := madAll_spec hN ct.a sk (List.replicate ct.b.length 0) hct.2.1 hsk.2 (by simp [hct.2.2])
  have hcoef := madAll_coeff hN hh ct.a sk (List.replicate ct.b.length 0) q (by rw [hct.1, hsk.1]) hct.2.1 hsk.2 (by simp [hct.2.2]) e1
  have hlen : (polySubAssign ct.b q).length = 2 ^ n := by rw [polySubAssign, zipAssign_length]; exact hct.2.2
  refine ⟨_, polySubAssign ct.b q, by rw [sampleExtract, if_pos hh], by rw [glweDecrypt, e1], hlen, ?_, ?_⟩
  · have hflat : ((ct.a.map (extractRow (2 ^ n) h)).flatten).length = k * 2 ^ n := by
      have : ∀ l : List (List R), ((l.map (extractRow (2 ^ n) h)).flatten).length = l.length * 2 ^ n := by
        intro l
        induction l with
        | nil => simp
        | cons p l ih => rw [List.map_cons, List.flatten_cons, List.length_append, ih, extractRow_length, List.length_cons]; ring
      rw [this, hct.1]
    have hpos : k * 2 ^ n ≠ 0 := (Nat.mul_pos hk (Nat.two_pow_pos n)).ne'
    rw [lweDecrypt, if_pos ⟨hpos, hflat⟩]
    have hr : (List.replicate ct.b.length (0 : R)).getD h 0 = 0 := by
      simp [List.getD, List.getElem?_replicate]; split <;> rfl
    rw [hr, zero_add] at hcoef
    rw [polySubAssign, zipAssign_eq _ _ _ (by rw [hct.2.2, e2])]
    have hb : h < ct.b.length := by rw [hct.2.2]; exact hh
    have hq : h < q.length := by omega
    simp only [List.getElem?_zipWith, List.getElem?_eq_getElem hb, List.getElem?_eq_getElem hq]
    have : dotAcc (ct.a.map (extractRow (2 ^ n) h)).flatten (toLweKey sk) 0 = q[h] := by
      rw [toLweKey, ← hcoef, getD_eq_getElem' _ _ _ hq]
    simp only [this, getD_eq_getElem' _ _ _ hb]
  · simp [hlen, hh]

/-- a concrete case -/
example : (sampleExtract 2 1 ⟨[[3#64, 4]], [5, 14]⟩).bind (lweDecrypt 2 (toLweKey [[1, 1]])) = some 7 ∧
    glweDecrypt ⟨[[3#64, 4]], [5, 14]⟩ [[1, 1]] = some [6, 7] := by decide

end Spf.Props
