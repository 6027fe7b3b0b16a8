import Verif.Proof.CtExec
import Verif.Spec.FheSem
import Verif.Proof.SchedGen
/-! C94: circuits evaluated on ciphertexts. -/
namespace Spf.Props
open Spf.Fhe Spf.Tfhe Spf.Spec Spf.CtExec
variable {W : Nat}

theorem keygen_ok {n v : Nat} {P : EvalParams} (hP : ParamsOk W n v P) {ν : NoiseLevels} {s : List Bool} {sk : List (List (BitVec W))} (hs : SecretOk P n ν s sk)
    (checked : Bool) {D : KeyDraws W} (hD : DrawsOk P n ν D) :
    ∃ K, computeKeyGen checked P (bitKey W s) sk D = some K ∧ Setting W n v P s sk ν K := by
  obtain ⟨p1, p2, p3, p4⟩ := hP.levels
  have hval : ∀ r : Radix, 0 < r.log ∧ 0 < r.count ∧ r.log * r.count < W → r.valid W = true := by
    rintro r ⟨h1, h2, h3⟩
    have := Nat.mul_comm r.log r.count
    simp only [Radix.valid, Bool.and_eq_true, decide_eq_true_eq]; omega
  obtain ⟨bsk, k1, k2⟩ := bskRows_spec (E := ν.bsk) hP.width P.pbs hP.pbs.1 hP.pbs.2.1 hP.pbs.2.2 sk hs.key D.bskMask hD.bskMask D.bskNoise hD.bskNoise 0 s
  rw [hs.len] at k1
  obtain ⟨ak, a1, a2, a3⟩ := akLoop_spec (checked := checked) hP.width P.tr hP.tr.1 (le_of_lt hP.tr.2.2) sk hs.key (fun _ => hs.bin) D.akMask D.akNoise hD.akMask hD.akNoise
    0 D.scratch (freshAk W P.glweSize n P.tr.count) (by simp [freshAk]) hD.scratch (by
      intro buf hbuf
      rw [freshAk] at hbuf
      rw [List.eq_of_mem_replicate hbuf]
      exact freshKsk_ok)
  have hakl : ak.length = n := by rw [a2]; simp [freshAk]
  obtain ⟨ssk, s1, s2⟩ := ssk_exists hP.width P.ss hP.ss.1 hP.ss.2.1 hP.ss.2.2 sk hs.key D.sskMask hD.sskMask D.sskNoise hD.sskNoise
  have hflat : ∀ x ∈ toLweKey sk, x = 0 ∨ x = 1 := by
    intro x hx
    simp only [toLweKey, List.mem_flatten] at hx
    obtain ⟨p, hp, hx⟩ := hx
    exact hs.bin p hp x hx
  have hflen : (toLweKey sk).length = P.glweSize * 2 ^ n := by
    rw [toLweKey, List.length_flatten, List.map_congr_left hs.key.2, List.map_const', List.sum_replicate, hs.key.1]; rfl
  have h1n : (1 : BitVec W).toNat = 1 := by
    show (BitVec.ofNat W 1).toNat = 1
    rw [BitVec.toNat_ofNat, Nat.mod_eq_of_lt (Nat.one_lt_two_pow (by omega))]
  have hkb := binary_bound (show 2 ≤ W by omega) hs.bin
  obtain ⟨ksk, q1, q2⟩ := C53_keyswitch_partial W hP.width checked (P.glweSize * 2 ^ n) P.lweDim 1 ν.ksk
    (Nat.ne_of_gt (Nat.mul_pos hP.glweSize (Nat.two_pow_pos n))) (Nat.ne_of_gt hP.lweDim) P.ks hP.ks.1 hP.ks.2.1 hP.ks.2.2 (toLweKey sk) (bitKey W s) hflen
    (by simp [bitKey, hs.len])
    (by
      intro x hx
      simp only [toLweKey, List.mem_flatten] at hx
      obtain ⟨p, hp, hx⟩ := hx
      exact hkb p hp x hx)
    (by
      intro _ x hx
      have : 2 ^ 1 ≤ 2 ^ P.ks.log := Nat.pow_le_pow_right (by decide) hP.ks.1
      rcases hflat x hx with rfl | rfl
      · simp
      · rw [h1n]; omega)
    (List.replicate (P.glweSize * 2 ^ n) (List.replicate P.ks.count (lweZero P.lweDim)))
    (by
      refine ⟨by simp, fun row hrow => ?_⟩
      rw [List.eq_of_mem_replicate hrow]
      refine ⟨by simp, fun ct hct => ?_⟩
      rw [List.eq_of_mem_replicate hct]
      simp [lweZero])
    D.kskMask hD.kskMask D.kskNoise hD.kskNoise
  have b1 : bskGen P.lweDim P.glweSize (2 ^ n) P.pbs (freshBsk W P.lweDim P.glweSize (2 ^ n) P.pbs.count) (bitKey W s) sk D.bskMask
      (fun h i j => torusNoise W (D.bskNoise h i j)) = some bsk := by
    rw [bskGen, if_pos ⟨by have := hP.lweDim; omega, isPow2_iff.mpr ⟨n, rfl⟩, by have := hP.glweSize; omega, hval _ hP.pbs, by simp [freshBsk], hs.key.1, by simp [bitKey, hs.len]⟩]
    exact k1
  have a1' : akGen checked (2 ^ n) P.tr (freshAk W P.glweSize n P.tr.count) D.scratch sk D.akMask (fun h i j => torusNoise W (D.akNoise h i j)) = some ak := by
    rw [akGen, log2_pow, if_pos ⟨hval _ hP.tr, by simp [freshAk]⟩]; exact a1
  refine ⟨⟨bsk, ak, ssk, ksk⟩, ?_, ⟨hP, hs.len, hs.ones, hs.key, hs.bin, ⟨k2, hakl, fun t h => by have := a3 t h; rwa [Nat.zero_add] at this, s2, q2⟩⟩⟩
  simp only [freshBsk, freshGgsw] at b1
  simp only [freshAk, freshGlweKsk] at a1'
  simp only [freshSsk] at s1
  rw [computeKeyGen, hP.degree, log2_pow, b1, q1, a1']
  simp only [torusNoise]
  rw [s1]

/-- evaluation on ciphertexts follows evaluation on messages and the noise analysis -/
theorem nodeEval_ok {n v : Nat} {P : EvalParams} {ν : NoiseLevels} {s : List Bool} {sk : List (List (BitVec W))} {K : EvalKey W} (h : Setting W n v P s sk ν K)
    {err : FheOp → List (Ct W × FheEdge) → OpErr W} (he : ∀ op ins, ErrOk P n ν.fft (err op ins))
    {cells : CtType → Nat → Ct W} {vals : CtType → Nat → Val} {nz : CtType → Nat → Nat} {g : FGraph}
    (hcells : ∀ a t c, g.weight a = some (.input t c) → Held P n (bitKey W s) sk (nz t c) (cells t c) (vals t c)) {a : Nat} {u : Val} (hu : FEval P.degree vals g a u) :
    ∀ {B : Nat}, NodeEval (noiseOp W P ν nz) g a B → ∃ c, NodeEval (execCt P K err cells) g a c ∧ Held P n (bitKey W s) sk B c u := by
  induction hu with
  | @op a op u f hw hs hx ih =>
    intro B hB
    cases hB with
    | op f' hw' hs' hx' =>
      rw [hw] at hw'
      cases hw'
      classical
      have hc : ∀ e ∈ g.inEdges a, ∃ c, NodeEval (execCt P K err cells) g e.1 c ∧ Held P n (bitKey W s) sk (f' e.1) c (f e.1) := fun e hm => ih e hm (hs' e hm)
      let F : Nat → Ct W := fun b => if hb : ∃ c, NodeEval (execCt P K err cells) g b c ∧ Held P n (bitKey W s) sk (f' b) c (f b) then hb.choose else .lwe0 (lweZero 0)
      have hF : ∀ e ∈ g.inEdges a, NodeEval (execCt P K err cells) g e.1 (F e.1) ∧ Held P n (bitKey W s) sk (f' e.1) (F e.1) (f e.1) := by
        intro e hm
        have hb := hc e hm
        simp only [F, dif_pos hb]
        exact hb.choose_spec
      obtain ⟨c, c1, c2⟩ := execCt_ok h he op (fun t c hop => hcells a t c (by rw [← hop]; exact hw)) ((g.inEdges a).map fun e => ((F e.1, f e.1, f' e.1), e.2.2))
        (by
          intro x hx
          simp only [List.mem_map] at hx
          obtain ⟨e, hm, rfl⟩ := hx
          exact (hF e hm).2)
        (u := u) (by rw [valIns, List.map_map]; exact hx) (B := B) (by rw [noiseIns, List.map_map]; exact hx')
      exact ⟨c, .op F hw (fun e hm => (hF e hm).1) (by rw [ctIns, List.map_map] at c1; exact c1), c2⟩

/-! ### the client -/

theorem enc_near {B : Nat} {x y : BitVec W} {e : Int} (h : e.natAbs ≤ B) (hx : x = y + BitVec.ofInt W e) : Near B x y := ⟨e, h, hx⟩

theorem encodePoly_bits (hW : 1 < W) (p : Nat → Bool) : ∀ l : List Nat,
    encodePoly (l.map fun i => if p i then (1 : BitVec W) else 0) 1 = some (l.map fun i => bitTorus W (p i))
  | [] => rfl
  | i :: l => by
    have := encodePoly_bits hW p l
    rw [encodePoly] at this ⊢
    have he : encode (if p i then (1 : BitVec W) else 0) 1 = some (bitTorus W (p i)) := encode_bit hW (p i)
    rw [List.map_cons, List.mapM_cons, he, this]; rfl

theorem encrypts_held {n v : Nat} {P : EvalParams} (hP : ParamsOk W n v P) {ν : NoiseLevels} {s : List Bool} {sk : List (List (BitVec W))} (hs : SecretOk P n ν s sk)
    {E : Nat} {m : Val} {c : Ct W} (h : CtEncrypts P (bitKey W s) sk E m c) : Held P n (bitKey W s) sk E c m := by
  have hp := Nat.two_pow_pos n
  obtain ⟨p1, p2, p3, p4⟩ := hP.levels
  have hW : 1 < W := by omega
  have hflen : (toLweKey sk).length = P.glweSize * 2 ^ n := by
    rw [toLweKey, List.length_flatten, List.map_congr_left hs.key.2, List.map_const', List.sum_replicate, hs.key.1]; rfl
  have hlwe : ∀ {m : Nat} (_ : 0 < m) {key : List (BitVec W)} (_ : key.length = m) {b : Bool} {mask : List (BitVec W)} {e : Int} {c : Lwe (BitVec W)}, mask.length = m →
      e.natAbs ≤ E → clientEncLwe m key b mask e = some c → c.a.length = m ∧ Near E (ph key c) (bitTorus W b) := by
    intro m hm key hk b mask e c h1 h2 h3
    rw [clientEncLwe, encode_bit hW] at h3
    simp only at h3
    obtain ⟨ct, e1, e2, e3⟩ := C50_lwe m (by omega) (lweZero m) key mask (bitTorus W b) (BitVec.ofInt W e) (by simp [lweZero]) hk h1
    obtain rfl := Option.some.inj (e1.symm.trans h3)
    exact (lweHolds_iff hm).1 ⟨_, e3, e, h2, rfl⟩
  cases m <;> cases c <;> simp only [CtEncrypts] at h
  · obtain ⟨mask, e, h1, h2, h3⟩ := h
    exact hlwe hP.lweDim (by simp [bitKey, hs.len]) h1 h2 h3
  · obtain ⟨mask, e, h1, h2, h3⟩ := h
    rw [hP.degree] at h1 h3
    exact hlwe (Nat.mul_pos hP.glweSize hp) hflen h1 h2 h3
  · obtain ⟨mask, e, h1, h2, h3⟩ := h
    rename_i p c
    rw [hP.degree] at h1 h2 h3
    rw [clientEncGlwe, encodePoly_bits hW, hP.degree] at h3
    simp only at h3
    obtain ⟨ct, e1, e2, e3⟩ := glweEncrypt_phase (glweZero P.glweSize (2 ^ n)) (bitPoly W (2 ^ n) p) sk mask (torusNoise W e)
      ⟨glweZero_valid _ _, by simp [glweZero]⟩ (bitPoly_length _ _) hs.key h1 (by
        intro l hl
        rw [torusNoise] at hl
        obtain ⟨l', hl', rfl⟩ := Option.map_eq_some_iff.1 hl
        simpa using (h2 l' hl').1)
    have : ct = c := Option.some.inj (e1.symm.trans h3)
    subst this
    refine ⟨e2, ?_⟩
    rw [e3, add_sub_cancel_left]
    exact noise_small e h2
  · obtain ⟨mask, e, h1, h2, h3⟩ := h
    rename_i b c
    rw [hP.degree] at h1 h2
    rw [clientEncGgsw, ggswEncryptScalar, hP.degree, if_neg (by omega), allocGgsw_eq hP.degree] at h3
    obtain ⟨g, g1, g2⟩ := ggsw_exists (E := E) hP.width P.cbs hP.cbs.1 hP.cbs.2.1 (by have := hP.cbs.2.2; omega) 1 hW ((if b then 1 else 0) :: List.replicate (2 ^ n - 1) 0)
      (by simp; omega) (bit_fits hW b) sk hs.key mask h1 e h2
    have : g = c := Option.some.inj (g1.symm.trans h3)
    subst this
    rw [bit_cls hp] at g2
    exact g2
  · obtain ⟨mask, e, h1, h2, h3⟩ := h
    rename_i b c
    rw [hP.degree] at h1 h2
    rw [clientEncGlev, constMsg, hP.degree, if_neg (by omega), allocGlev_eq hP.degree] at h3
    simp only at h3
    obtain ⟨g, g1, g2⟩ := glevEncrypt_spec (E := E) hP.width P.cbs hP.cbs.1 hP.cbs.2.1 (by have := hP.cbs.2.2; omega) ((if b then 1 else 0) :: List.replicate (2 ^ n - 1) 0)
      (by simp; omega) sk hs.key mask e h1 h2 _ freshGlev_ok.1 freshGlev_ok.2
    have : g = c := Option.some.inj (g1.symm.trans h3)
    subst this
    rw [bit_cls hp] at g2
    exact g2

theorem held_decrypts {n v : Nat} {P : EvalParams} (hP : ParamsOk W n v P) {ν : NoiseLevels} {s : List Bool} {sk : List (List (BitVec W))} (hs : SecretOk P n ν s sk)
    {B : Nat} {m : Val} {c : Ct W} (h : Held P n (bitKey W s) sk B c m) (hB : B < decryptLimit W P m) : CtDecrypts P (bitKey W s) sk c m := by
  have hp := Nat.two_pow_pos n
  obtain ⟨p1, p2, p3, p4⟩ := hP.levels
  have hW : 1 < W := by omega
  have h1n : (1#W == 1#W) = true := by simp
  have h0n : (0#W == 1#W) = false := by
    rw [beq_eq_false_iff_ne]
    intro h
    have := congrArg BitVec.toNat h
    rw [BitVec.toNat_ofNat, BitVec.toNat_ofNat, Nat.mod_eq_of_lt (Nat.one_lt_two_pow (by omega))] at this
    simp at this
  have hlwe : ∀ {m : Nat} (_ : 0 < m) {key : List (BitVec W)} {b : Bool} {c : Lwe (BitVec W)}, c.a.length = m ∧ Near B (ph key c) (bitTorus W b) → B < 2 ^ (W - 2) →
      clientDecLwe m key c = some b := by
    intro m hm key b c hc hB
    obtain ⟨x, x1, x2⟩ := (lweHolds_iff hm).2 hc
    have hd := near_decode (p := 1) (v := if b then 1 else 0) (by decide) hW (by decide) (by cases b <;> decide) hB x2
    rw [clientDecLwe, x1]
    simp only [hd]
    cases b
    · simp only [Bool.false_eq_true, if_false]; rw [h0n]
    · simp only [if_true]; rw [h1n]
  have hlc : P.cbs.log < W := by
    have := Nat.le_mul_of_pos_right P.cbs.log hP.cbs.2.1
    have := hP.cbs.2.2; omega
  have hW64 := hP.width
  cases c <;> cases m <;> simp only [Held] at h <;> simp only [decryptLimit] at hB <;> simp only [CtDecrypts]
  · exact hlwe hP.lweDim h hB
  · rw [hP.degree]; exact hlwe (Nat.mul_pos hP.glweSize hp) h hB
  · rename_i c p
    obtain ⟨y, y1, y2⟩ := (glweHolds_iff hs.key (bitPoly_length _ _) h.1).2 h.2
    have hq : bitPoly W (2 ^ n) p = ((List.range (2 ^ n)).map fun i => if p i then 1 else 0).map fun m => wrapShl (BitVec.ofNat W m) (W - 1) := by
      rw [bitPoly, List.map_map]
      apply List.map_congr_left
      intro i _
      simp only [Function.comp, bitTorus, wrapShl]
      rw [Nat.mod_eq_of_lt (show W - 1 < W by omega)]
      apply BitVec.eq_of_toNat_eq
      rw [BitVec.toNat_shiftLeft, BitVec.toNat_ofNat, BitVec.toNat_ofNat, Nat.shiftLeft_eq, Nat.mod_mul_mod]
    rw [hq] at y2
    have := C56_near_decodes 1 B (by decide) hW (by decide) hB _ (by
      intro m hm
      simp only [List.mem_map] at hm
      obtain ⟨i, _, rfl⟩ := hm
      cases p i <;> decide) y y2
    rw [clientDecGlwe, glweDecryptDecode, y1, hP.degree]
    simp only
    rw [this, List.map_map]
    congr 1
    apply List.map_congr_left
    intro i _
    simp only [Function.comp]
    cases p i <;> rfl
  · rename_i c b
    rw [clientDecGgsw, ggswDecrypt_bit hP.cbs.1 hP.cbs.2.1 (by have := hP.cbs.2.2; omega) (by omega) hB hs.key h]
    simp only
    cases b
    · exact congrArg some h0n
    · exact congrArg some h1n
  · rename_i c b
    rw [hP.degree]
    have := glevDecryptAt_spec (i := 0) hP.cbs.1 hP.cbs.2.1 (by have := hP.cbs.2.2; omega) hP.cbs.2.1 (by simpa using hlc) (by omega) (by simpa using hB) sk hs.key
      ((if b then 1 else 0) :: List.replicate (2 ^ n - 1) 0) (by simp; omega) c (by rw [bit_cls hp]; exact h)
    rw [clientDecGlev, glevDecrypt, this, mask_id (le_of_lt hlc)]
    intro x hx
    exact lt_of_lt_of_le (bit_fits hW b x hx) (Nat.pow_le_pow_right (by decide) hP.cbs.1)

/-! ### C94 -/

/-- **C94, circuits.** Generate a compute key for binary secret keys, with any masks and noise within `ν`, into fresh memory; this
succeeds. Take any circuit, any contents of its input cells, up to any noise bounds, and any floating-point errors within
`ν.fft`. If a node has the value `u` on messages and the static noise analysis bounds it by `B` (no bootstrap is given more noise
than it can remove), then evaluation on ciphertexts succeeds at that node, and the ciphertext holds `u` up to `B`. Missing: a
bound on noise in distribution rather than in the worst case (the worst case does not cover a bootstrap at the 128-bit
parameters, see the examples). -/
theorem C94_circuit_partial {n v : Nat} {P : EvalParams} (hP : ParamsOk W n v P) {ν : NoiseLevels} {s : List Bool} {sk : List (List (BitVec W))} (hs : SecretOk P n ν s sk)
    (checked : Bool) {D : KeyDraws W} (hD : DrawsOk P n ν D) :
    ∃ K, computeKeyGen checked P (bitKey W s) sk D = some K ∧ ∀ err : FheOp → List (Ct W × FheEdge) → OpErr W, (∀ op ins, ErrOk P n ν.fft (err op ins)) →
      ∀ (g : FGraph) (cells : CtType → Nat → Ct W) (vals : CtType → Nat → Val) (nz : CtType → Nat → Nat),
        (∀ a t c, g.weight a = some (.input t c) → CtHolds P (bitKey W s) sk (nz t c) (cells t c) (vals t c)) →
        ∀ a u B, FEval P.degree vals g a u → NodeEval (noiseOp W P ν nz) g a B →
          ∃ c, NodeEval (execCt P K err cells) g a c ∧ CtHolds P (bitKey W s) sk B c u := by
  obtain ⟨K, k1, k2⟩ := keygen_ok hP hs checked hD
  refine ⟨K, k1, fun err he g cells vals nz hc a u B hu hB => ?_⟩
  obtain ⟨c, c1, c2⟩ := nodeEval_ok k2 he (fun a t c hw => (holds_iff hP hs.key _ _).1 (hc a t c hw)) hu hB
  exact ⟨c, c1, (holds_iff hP hs.key _ _).2 c2⟩

/-- **C94, encryption.** A fresh encryption by the client holds its message, up to the noise drawn. -/
theorem C94_encrypt {n v : Nat} {P : EvalParams} (hP : ParamsOk W n v P) {ν : NoiseLevels} {s : List Bool} {sk : List (List (BitVec W))} (hs : SecretOk P n ν s sk)
    (E : Nat) (m : Val) (c : Ct W) (h : CtEncrypts P (bitKey W s) sk E m c) : CtHolds P (bitKey W s) sk E c m :=
  (holds_iff hP hs.key _ _).2 (encrypts_held hP hs h)

/-- **C94, decryption.** A ciphertext that holds a message up to a noise below the limit of its kind decrypts to the message. -/
theorem C94_decrypt {n v : Nat} {P : EvalParams} (hP : ParamsOk W n v P) {ν : NoiseLevels} {s : List Bool} {sk : List (List (BitVec W))} (hs : SecretOk P n ν s sk)
    (B : Nat) (m : Val) (c : Ct W) (h : CtHolds P (bitKey W s) sk B c m) (hB : B < decryptLimit W P m) : CtDecrypts P (bitKey W s) sk c m :=
  held_decrypts hP hs ((holds_iff hP hs.key _ _).1 h) hB

/-- **C94, encryption succeeds.** The client can encrypt every message, whatever the masks and the noise drawn (of the right shape). -/
theorem C94_encrypt_succeeds {n v : Nat} {P : EvalParams} (hP : ParamsOk W n v P) {ν : NoiseLevels} {s : List Bool} {sk : List (List (BitVec W))} (hs : SecretOk P n ν s sk)
    (b : Bool) (p : Nat → Bool) :
    (∀ mask noise, mask.length = P.lweDim → ∃ c, clientEncLwe P.lweDim (bitKey W s) b mask noise = some c) ∧
    (∀ mask noise, mask.length = P.glweSize * P.degree → ∃ c, clientEncLwe (P.glweSize * P.degree) (toLweKey sk) b mask noise = some c) ∧
    (∀ mask noise E, KeyFor mask P.glweSize P.degree → NoiseOk P.degree E noise →
      ∃ c, clientEncGlwe P sk ((List.range P.degree).map fun i => if p i then 1 else 0) mask noise = some c) ∧
    (∀ mask noise E, (∀ j, KeyFor (mask j) P.glweSize P.degree) → (∀ j, NoiseOk P.degree E (noise j)) → ∃ c, clientEncGlev P sk b mask noise = some c) ∧
    (∀ mask noise E, (∀ i j, KeyFor (mask i j) P.glweSize P.degree) → (∀ i j, NoiseOk P.degree E (noise i j)) → ∃ c, clientEncGgsw P sk b mask noise = some c) := by
  have hp := Nat.two_pow_pos n
  obtain ⟨p1, p2, p3, p4⟩ := hP.levels
  have hW : 1 < W := by omega
  have hflen : (toLweKey sk).length = P.glweSize * 2 ^ n := by
    rw [toLweKey, List.length_flatten, List.map_congr_left hs.key.2, List.map_const', List.sum_replicate, hs.key.1]; rfl
  have hlwe : ∀ (m : Nat) (_ : 0 < m) (key : List (BitVec W)) (_ : key.length = m) (mask : List (BitVec W)) (e : Int), mask.length = m →
      ∃ c, clientEncLwe m key b mask e = some c := by
    intro m hm key hk mask e h1
    obtain ⟨ct, e1, _⟩ := C50_lwe m (by omega) (lweZero m) key mask (bitTorus W b) (BitVec.ofInt W e) (by simp [lweZero]) hk h1
    exact ⟨ct, by rw [clientEncLwe, encode_bit hW]; exact e1⟩
  refine ⟨fun mask e h => hlwe _ hP.lweDim _ (by simp [bitKey, hs.len]) mask e h, fun mask e h => ?_, fun mask e E h1 h2 => ?_, fun mask e E h1 h2 => ?_, fun mask e E h1 h2 => ?_⟩
  · rw [hP.degree] at h ⊢
    exact hlwe _ (Nat.mul_pos hP.glweSize hp) _ hflen mask e h
  · rw [hP.degree] at h1 h2
    obtain ⟨ct, e1, _⟩ := glweEncrypt_phase (glweZero P.glweSize (2 ^ n)) (bitPoly W (2 ^ n) p) sk mask (torusNoise W e)
      ⟨glweZero_valid _ _, by simp [glweZero]⟩ (bitPoly_length _ _) hs.key h1 (by
        intro l hl
        rw [torusNoise] at hl
        obtain ⟨l', hl', rfl⟩ := Option.map_eq_some_iff.1 hl
        simpa using (h2 l' hl').1)
    refine ⟨ct, ?_⟩
    rw [clientEncGlwe, encodePoly_bits hW, hP.degree]
    exact e1
  · rw [hP.degree] at h1 h2
    obtain ⟨g, g1, _⟩ := glevEncrypt_spec (E := E) hP.width P.cbs hP.cbs.1 hP.cbs.2.1 (by have := hP.cbs.2.2; omega) ((if b then 1 else 0) :: List.replicate (2 ^ n - 1) 0)
      (by simp; omega) sk hs.key mask e h1 h2 _ freshGlev_ok.1 freshGlev_ok.2
    refine ⟨g, ?_⟩
    rw [clientEncGlev, constMsg, hP.degree, if_neg (by omega), allocGlev_eq hP.degree]
    exact g1
  · rw [hP.degree] at h1 h2
    obtain ⟨g, g1, _⟩ := ggsw_exists (E := E) hP.width P.cbs hP.cbs.1 hP.cbs.2.1 (by have := hP.cbs.2.2; omega) 1 hW ((if b then 1 else 0) :: List.replicate (2 ^ n - 1) 0)
      (by simp; omega) (bit_fits hW b) sk hs.key mask h1 e h2
    refine ⟨g, ?_⟩
    rw [clientEncGgsw, ggswEncryptScalar, hP.degree, if_neg (by omega), allocGgsw_eq hP.degree]
    exact g1

instance : Inhabited (Ct W) := ⟨.lwe0 (lweZero 0)⟩

theorem interp_execCt (P : EvalParams) (K : EvalKey W) (err : FheOp → List (Ct W × FheEdge) → OpErr W) : SchedG.Interp (execCt P K err) where
  cells := by
    intro c₁ c₂ op ins h
    cases op with
    | input t i =>
      cases ins with
      | nil => simp only [execCt]; rw [h t i rfl]
      | cons a l => rfl
    | _ =>
      rcases ins with _ | ⟨⟨v, k⟩, _ | ⟨⟨v', k'⟩, _ | ⟨⟨v'', k''⟩, _ | ⟨a, l⟩⟩⟩⟩ <;> first | rfl | (cases v <;> cases k <;> rfl)
  nop := by
    intro c ins
    rcases ins with _ | ⟨⟨v, k⟩, _ | ⟨⟨v', k'⟩, l⟩⟩ <;> first | rfl | (cases v <;> cases k <;> rfl)
  retire := by
    intro c ins
    rcases ins with _ | ⟨⟨v, k⟩, _ | ⟨⟨v', k'⟩, l⟩⟩ <;> first | rfl | (cases v <;> cases k <;> rfl)

/-- **C94, end to end.** The client encrypts the inputs of several circuits; the circuit processor evaluates them on the
ciphertexts with the generated compute key, on any number of threads, under any schedule; nothing fails, and what the client
decrypts from the output cells is what the circuits compute on the messages. For circuits that evaluate on messages, and whose
noise analysis succeeds at every node and is below the decryption limit at the outputs. Missing: as `C94_circuit_partial`. -/
theorem C94_end_to_end_partial {n v : Nat} {P : EvalParams} (hP : ParamsOk W n v P) {ν : NoiseLevels} {s : List Bool} {sk : List (List (BitVec W))} (hs : SecretOk P n ν s sk)
    (checked : Bool) {D : KeyDraws W} (hD : DrawsOk P n ν D) :
    ∃ K, computeKeyGen checked P (bitKey W s) sk D = some K ∧ ∀ err : FheOp → List (Ct W × FheEdge) → OpErr W, (∀ op ins, ErrOk P n ν.fft (err op ins)) →
      ∀ (gs : List (FGraph × List Nat)) (cells : CtType × Nat → Ct W) (vals : CtType → Nat → Val) (nz : CtType → Nat → Nat),
        (∀ p ∈ gs, Sched.TopoOrder p.1 p.2) → Sched.Apart gs →
        (∀ p ∈ gs, ∀ a t c, p.1.weight a = some (.input t c) → CtEncrypts P (bitKey W s) sk (nz t c) (vals t c) (cells (t, c))) →
        ∀ prog, Sched.spawnAll gs 0 0 = some prog → ∀ threads tokens st, Reached (liftExec (execCt P K err)) threads tokens prog cells st → Finished prog st →
          ∀ k g ord, gs[k]? = some (g, ord) → Sched.Evaluates P.degree (fun x => vals x.1 x.2) g →
            (∀ a op, g.weight a = some op → op ≠ .nop → ∃ B, NodeEval (noiseOp W P ν nz) g a B) →
            st.fired k = [none] ∧ ∀ a t c u B, g.weight a = some (.output t c) → FEval P.degree vals g a u → NodeEval (noiseOp W P ν nz) g a B →
              B < decryptLimit W P u → CtDecrypts P (bitKey W s) sk (st.cells (t, c)) u := by
  obtain ⟨K, k1, k2⟩ := keygen_ok hP hs checked hD
  refine ⟨K, k1, fun err he gs cells vals nz ht ha hin prog hsp threads tokens st hr hfin k g ord hk hev hnz => ?_⟩
  have hI := interp_execCt P K err
  have hheld : ∀ a t c, g.weight a = some (.input t c) → Held P n (bitKey W s) sk (nz t c) ((fun t c => cells (t, c)) t c) (vals t c) := fun a t c hw =>
    encrypts_held hP hs (hin _ (List.mem_of_getElem? hk) a t c hw)
  have hfired : st.fired k = [none] := by
    refine (SchedG.sched19_circuits hI ht ha hsp hr hfin hk).1 ⟨fun a op hw => ?_, hev.sink⟩
    rcases hev.node a op hw with h | ⟨u, hu⟩
    · exact Or.inl h
    · right
      have hne : op ≠ .nop := by
        rintro rfl
        cases hu with
        | op f hw' _ hx => rw [hw] at hw'; cases hw'; simp [execOp] at hx
      obtain ⟨B, hB⟩ := hnz a op hw hne
      obtain ⟨c, c1, _⟩ := nodeEval_ok k2 he hheld hu hB
      exact ⟨c, c1⟩
  refine ⟨hfired, fun a t c u B hw hu hB hlim => ?_⟩
  obtain ⟨x, x1, x2⟩ := SchedG.sched16_circuits hI ht ha hsp hr hk (by rw [hfired]; simp) hw
  obtain ⟨y, y1, y2⟩ := nodeEval_ok k2 he hheld hu hB
  rw [x2, SchedG.NodeEval.unique x1 y1]
  exact held_decrypts hP hs y2 hlim

/-- **C94, violation.** `KeylessEvaluation::not` is documented as the coefficient-wise negation of a polynomial of bits. It negates
the constant coefficient only: for every ciphertext that holds a polynomial `p` with noise that decryption removes, the result decrypts
to `p` with the first bit flipped, and so differs from the coefficient-wise negation whenever there is a second coefficient. -/
theorem C94_not_violated {n v : Nat} {P : EvalParams} (hP : ParamsOk W n v P) {ν : NoiseLevels} {s : List Bool} {sk : List (List (BitVec W))} (hs : SecretOk P n ν s sk)
    (checked : Bool) {D : KeyDraws W} (hD : DrawsOk P n ν D) :
    ∃ K, computeKeyGen checked P (bitKey W s) sk D = some K ∧ ∀ err : FheOp → List (Ct W × FheEdge) → OpErr W, (∀ op ins, ErrOk P n ν.fft (err op ins)) →
      ∀ (cells : CtType → Nat → Ct W) (c : Ct W) (p : Nat → Bool) (B : Nat), CtHolds P (bitKey W s) sk B c (.glwe1 p) → B < 2 ^ (W - 2) →
        ∃ c', execCt P K err cells .not [(c, .unary)] = some c' ∧ CtDecrypts P (bitKey W s) sk c' (.glwe1 fun i => if i = 0 then !p 0 else p i) ∧
          ¬ CtDecrypts P (bitKey W s) sk c' (.glwe1 fun i => !p i) := by
  obtain ⟨K, k1, k2⟩ := keygen_ok hP hs checked hD
  refine ⟨K, k1, fun err he cells c p B hc hB => ?_⟩
  obtain ⟨c', c1, c2⟩ := execCt_ok (cells := cells) (vals := fun _ _ => .lwe0 false) (nz := fun _ _ => 0) k2 he .not (fun _ _ h => by cases h) [((c, .glwe1 p, B), .unary)]
    (by intro x hx; rw [List.mem_singleton.1 hx]; exact (holds_iff hP hs.key _ _).1 hc)
    (u := .glwe1 fun i => Bool.xor (p i) (constPoly true i)) (by simp [valIns, execOp]) (B := B) (by simp [noiseIns, noiseOp])
  have hf : (fun i => Bool.xor (p i) (constPoly true i)) = fun i => if i = 0 then !p 0 else p i := by
    funext i
    by_cases h : i = 0
    · simp [h, constPoly]
    · have : (i == 0) = false := by simpa using h
      simp [h, constPoly, this]
  rw [hf] at c2
  have hd := held_decrypts hP hs c2 hB
  refine ⟨c', c1, hd, fun hd' => ?_⟩
  cases c' <;> simp only [CtDecrypts] at hd hd'
  obtain ⟨p1, p2, p3, p4⟩ := hP.levels
  rw [hd, Option.some.injEq] at hd'
  have hlen : 1 < P.degree := by rw [hP.degree]; exact Nat.one_lt_two_pow (by omega)
  have := congrArg (fun l : List (BitVec W) => l[1]?) hd'
  simp only [List.getElem?_map, List.getElem?_range hlen, Option.map_some, Option.some.injEq] at this
  cases hp1 : p 1
  · simp [hp1] at this; omega
  · simp [hp1] at this; omega

/-! ### concrete cases -/

/-- evaluation with fuel -/
def nodeFuel {V : Type} (exec : FheOp → List (V × FheEdge) → Option V) (g : FGraph) : Nat → Nat → Option V
  | 0, _ => none
  | k + 1, n => match g.weight n with
    | none => none
    | some op => match (g.inEdges n).mapM (fun e => (nodeFuel exec g k e.1).map fun v => (v, e.2.2)) with
      | none => none
      | some ins => exec op ins

theorem mapM_fuel {V : Type} [Inhabited V] {F : Nat → Option V} : ∀ {es : List (Nat × Nat × FheEdge)} {ins : List (V × FheEdge)},
    es.mapM (fun e => (F e.1).map fun v => (v, e.2.2)) = some ins →
    (∀ e ∈ es, F e.1 = some ((F e.1).getD default)) ∧ ins = es.map fun e => ((F e.1).getD default, e.2.2)
  | [], ins, h => by cases h; simp
  | e :: es, ins, h => by
    rw [List.mapM_cons] at h
    cases hb : F e.1 with
    | none => simp [hb] at h
    | some o =>
      simp only [hb, Option.map_some] at h
      cases hm : es.mapM (fun e => (F e.1).map fun v => (v, e.2.2)) with
      | none => rw [hm] at h; cases h
      | some ins1 =>
        rw [hm] at h
        cases h
        obtain ⟨i1, i2⟩ := mapM_fuel hm
        constructor
        · intro e' he'
          rcases List.mem_cons.1 he' with rfl | he'
          · rw [hb]; rfl
          · exact i1 e' he'
        · rw [List.map_cons, hb, i2]; rfl

theorem nodeFuel_ok {V : Type} [Inhabited V] {exec : FheOp → List (V × FheEdge) → Option V} {g : FGraph} : ∀ {k n : Nat} {v : V}, nodeFuel exec g k n = some v → NodeEval exec g n v
  | 0, n, v, h => by cases h
  | k + 1, n, v, h => by
    rw [nodeFuel] at h
    cases hw : g.weight n with
    | none => rw [hw] at h; cases h
    | some op =>
      rw [hw] at h
      simp only at h
      cases hm : (g.inEdges n).mapM (fun e => (nodeFuel exec g k e.1).map fun v => (v, e.2.2)) with
      | none => rw [hm] at h; cases h
      | some ins =>
        rw [hm] at h
        obtain ⟨i1, rfl⟩ := mapM_fuel hm
        exact .op (fun a => (nodeFuel exec g k a).getD default) hw (fun e he => nodeFuel_ok (i1 e he)) h

theorem nodeEval_feval {deg : Nat} {vals : CtType → Nat → Val} {g : FGraph} {n : Nat} {u : Val} (h : NodeEval (execOp deg vals) g n u) : FEval deg vals g n u := by
  induction h with
  | op f hw hs hx ih => exact .op f hw ih hx

instance : Inhabited Val := ⟨.lwe0 false⟩

/-- a circuit that extracts, keyswitches and bootstraps a bit of a GLWE input, and uses it to select between 0 and 1 -/
def exCtBoot : FGraph := ⟨[some (.input .glwe1 0), some (.sampleExtract 0), some .keyswitchL1toL0, some .circuitBootstrap, some .zeroGlwe1, some .oneGlwe1, some .cmux,
    some (.output .glwe1 1)], [(0, 1, .unary), (1, 2, .unary), (2, 3, .unary), (3, 6, .sel), (4, 6, .low), (5, 6, .high), (6, 7, .unary)]⟩

/-- small parameters that satisfy the worst-case analysis -/
def exCtParams : EvalParams := ⟨2, 1, 16, ⟨4, 4⟩, ⟨8, 6⟩, ⟨4, 12⟩, ⟨8, 6⟩, ⟨8, 6⟩⟩

/-- noise levels for them -/
def exCtLevels : NoiseLevels := ⟨4, 4, 4, 4, 4, 2⟩

/-- the 128-bit parameters (parasol_runtime/src/params.rs:107-134) -/
def default128 : EvalParams := ⟨637, 1, 2048, ⟨4, 4⟩, ⟨16, 2⟩, ⟨2, 6⟩, ⟨3, 15⟩, ⟨7, 6⟩⟩

/-- both sets of parameters satisfy the conditions -/
theorem exCtParams_ok : ParamsOk 64 4 2 exCtParams := by constructor <;> decide
theorem default128_ok : ParamsOk 64 11 2 default128 := by constructor <;> decide

/-- keys and draws that satisfy the conditions, with non-zero masks and noise -/
def exCtDraws : KeyDraws 64 where
  bskMask := fun h i j => [List.replicate 16 (BitVec.ofNat 64 (h + 3 * i + 5 * j + 1))]
  bskNoise := fun _ _ _ => some (List.replicate 16 (-3))
  akMask := fun h i j => [List.replicate 16 (BitVec.ofNat 64 (h + 3 * i + 7 * j + 1))]
  akNoise := fun _ _ _ => some (List.replicate 16 4)
  scratch := [List.replicate 16 9]
  sskMask := fun i j => [List.replicate 16 (BitVec.ofNat 64 (3 * i + 5 * j + 1))]
  sskNoise := fun _ _ => none
  kskMask := fun i j => [BitVec.ofNat 64 i, BitVec.ofNat 64 (j + 1)]
  kskNoise := fun _ _ => -2

def exCtSk : List (List (BitVec 64)) := [[1, 0, 1, 1, 0, 0, 1, 0, 1, 0, 1, 1, 0, 0, 1, 0]]

theorem exCtSecret_ok : SecretOk exCtParams 4 exCtLevels [true, true] exCtSk := by
  refine ⟨rfl, by decide, ⟨by decide, by simp [exCtSk]⟩, ?_⟩
  intro p hp x hx
  simp only [exCtSk, List.mem_singleton] at hp
  subst hp
  simp only [List.mem_cons, List.not_mem_nil, or_false] at hx
  tauto

theorem noiseOk_replicate {N E : Nat} {e : Int} (h : e.natAbs ≤ E) : NoiseOk N E (some (List.replicate N e)) := by
  intro l hl
  cases hl
  refine ⟨by simp, fun x hx => ?_⟩
  rw [List.eq_of_mem_replicate hx]; exact h

theorem exCtDraws_ok : DrawsOk exCtParams 4 exCtLevels exCtDraws where
  bskMask := fun h i j => ⟨rfl, by simp [exCtDraws]⟩
  bskNoise := fun h i j => noiseOk_replicate (by decide)
  akMask := fun h i j => ⟨rfl, by simp [exCtDraws]⟩
  akNoise := fun h i j => noiseOk_replicate (by decide)
  scratch := ⟨rfl, by simp [exCtDraws]⟩
  sskMask := fun i j => ⟨rfl, by simp [exCtDraws]⟩
  sskNoise := fun i j => fun l hl => by cases hl
  kskMask := fun i j => rfl
  kskNoise := fun _ _ => (by decide : (-2 : Int).natAbs ≤ 4)

/-- The circuit has a value and passes the noise analysis: for the input polynomial `1 + X` (noise up to 1000), the output is the constant polynomial
1, with a noise far below the decryption limit. -/
example : (∃ p, FEval 16 (fun _ _ => .glwe1 fun i => decide (i < 2)) exCtBoot 7 (.glwe1 p) ∧ p 0 = true ∧ p 1 = false) ∧
    ∃ B, NodeEval (noiseOp 64 exCtParams exCtLevels fun _ _ => 1000) exCtBoot 7 B ∧ B < 2 ^ 52 ∧ 2 ^ 52 < decryptLimit 64 exCtParams (.glwe1 fun _ => true) := by
  refine ⟨⟨_, nodeEval_feval (nodeFuel_ok (k := 8) (by rfl)), by decide, by decide⟩, ?_⟩
  have h : ∃ B, nodeFuel (noiseOp 64 exCtParams exCtLevels fun _ _ => 1000) exCtBoot 8 7 = some B ∧ B < 2 ^ 52 := by
    refine ⟨_, by rfl, by decide +kernel⟩
  obtain ⟨B, h1, h2⟩ := h
  exact ⟨B, nodeFuel_ok h1, h2, by decide⟩

/-- a tree of multiplexers over encrypted selectors -/
def exCtTree : FGraph := ⟨[some (.input .ggsw1 0), some (.input .ggsw1 1), some .zeroGlwe1, some .oneGlwe1, some .cmux, some .cmux, some .cmux, some (.output .glwe1 1)],
    [(0, 4, .sel), (2, 4, .low), (3, 4, .high), (0, 5, .sel), (3, 5, .low), (2, 5, .high), (1, 6, .sel), (4, 6, .low), (5, 6, .high), (6, 7, .unary)]⟩

/-- At the 128-bit parameters the worst-case analysis covers circuits over fresh selectors (here the exclusive or of two encrypted
bits), but not a bootstrap followed by a multiplexer. -/
example : (∃ B, NodeEval (noiseOp 64 default128 ⟨2 ^ 16, 2 ^ 16, 2 ^ 16, 2 ^ 51, 2 ^ 10, 400⟩ fun _ _ => 2 ^ 16) exCtTree 7 B ∧ B < 2 ^ 60) ∧
    2 ^ 64 < muxNoise 64 default128 ⟨2 ^ 16, 2 ^ 16, 2 ^ 16, 2 ^ 51, 2 ^ 10, 400⟩ (bootNoise 64 default128 ⟨2 ^ 16, 2 ^ 16, 2 ^ 16, 2 ^ 51, 2 ^ 10, 400⟩) := by
  constructor
  · have h : ∃ B, nodeFuel (noiseOp 64 default128 ⟨2 ^ 16, 2 ^ 16, 2 ^ 16, 2 ^ 51, 2 ^ 10, 400⟩ fun _ _ => 2 ^ 16) exCtTree 8 7 = some B ∧ B < 2 ^ 60 :=
      ⟨_, by rfl, by decide +kernel⟩
    obtain ⟨B, h1, h2⟩ := h
    exact ⟨B, nodeFuel_ok h1, h2⟩
  · decide +kernel

end Spf.Props
