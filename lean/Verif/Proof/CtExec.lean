import Verif.Spec.CtNoise
import Verif.Props.Keyswitch
import Verif.Props.GlevDec
/-! Operators on ciphertexts compute on messages, up to noise. -/
namespace Spf.CtExec
open Spf.Fhe Spf.Tfhe Spf.Spec Spf.Props
variable {W : Nat}

/-! ### bits on the torus -/

theorem bitTorus_false : bitTorus W false = 0 := by simp [bitTorus]

theorem bitTorus_double (hW : 0 < W) (b : Bool) : bitTorus W b + bitTorus W b = 0 := by
  cases b
  · simp [bitTorus]
  · rw [bitTorus]
    apply BitVec.eq_of_toNat_eq
    have h : 2 ^ W = 2 * 2 ^ (W - 1) := by rw [← pow_succ']; congr 1; omega
    have hp := Nat.two_pow_pos (W - 1)
    simp only [if_true, Nat.one_mul, BitVec.toNat_add, BitVec.toNat_ofNat]
    rw [Nat.mod_eq_of_lt (show 2 ^ (W - 1) < 2 ^ W by omega), ← two_mul, ← h, Nat.mod_self]
    simp

theorem bitTorus_neg (hW : 0 < W) (b : Bool) : -bitTorus W b = bitTorus W b :=
  neg_eq_of_add_eq_zero_left (bitTorus_double hW b)

theorem bitTorus_xor (hW : 0 < W) (a b : Bool) : bitTorus W a + bitTorus W b = bitTorus W (Bool.xor a b) := by
  cases a <;> cases b
  · simp [bitTorus]
  · simp [bitTorus_false]
  · simp [bitTorus_false]
  · rw [bitTorus_double hW]; simp [bitTorus_false]

theorem encode_bit (hW : 1 < W) (b : Bool) : encode (if b then 1#W else 0#W) 1 = some (bitTorus W b) := by
  cases b
  · rw [encode, if_pos hW, bitTorus]; simp [wrapShl]
  · simp only [if_true]
    rw [encode_one (by decide) hW, bitTorus]; simp

theorem bitPoly_length (N : Nat) (p : Nat → Bool) : (bitPoly W N p).length = N := by simp [bitPoly]

theorem bitPoly_const (N : Nat) (hN : 0 < N) (b : Bool) : bitPoly W N (constPoly b) = bitTorus W b :: List.replicate (N - 1) 0 := by
  obtain ⟨m, rfl⟩ : ∃ m, N = m + 1 := ⟨N - 1, by omega⟩
  rw [bitPoly, List.range_succ_eq_map, List.map_cons, List.map_map]
  congr 1
  rw [Nat.add_sub_cancel]
  apply List.ext_getElem (by simp)
  intro i h1 h2
  simp [constPoly, bitTorus_false]

theorem bitPoly_xor (hW : 0 < W) (N : Nat) (p q : Nat → Bool) :
    cls N (bitPoly W N p) + cls N (bitPoly W N q) = cls N (bitPoly W N fun i => Bool.xor (p i) (q i)) := by
  rw [← cls_zipWith_add _ _ _ (by simp [bitPoly])]
  congr 1
  apply List.ext_getElem (by simp [bitPoly])
  intro i h1 h2
  simp [bitPoly, bitTorus_xor hW]

/-! ### holding a message, on phases -/

theorem glevHolds_iff {n k B : Nat} {r : Radix} {sk : List (List (BitVec W))} (hsk : KeyFor sk k (2 ^ n)) {msg : List (BitVec W)} (hm : msg.length = 2 ^ n)
    {row : List (Glwe (BitVec W))} : GlevHolds k (2 ^ n) r sk B msg row ↔ GlevOk k (2 ^ n) r.log r.count B sk (cls (2 ^ n) msg) row := by
  have hN : isPow2 (2 ^ n) = true := isPow2_iff.mpr ⟨n, rfl⟩
  have hc : ∀ f : BitVec W, cls (2 ^ n) (msg.map (· * f)) = cls (2 ^ n) msg * em (2 ^ n) f := fun f => by rw [cls_smul]; rfl
  constructor
  · rintro ⟨h1, h2⟩
    refine ⟨h1, fun ct hct => ?_, fun t ht => ?_⟩
    · obtain ⟨t, ht⟩ := List.getElem?_of_mem hct
      exact (h2 t ct ht).1
    · obtain ⟨hv, y, y1, y2⟩ := h2 t row[t] (List.getElem?_eq_getElem ht)
      obtain ⟨y', z1, z2, z3⟩ := decrypt_phase hN row[t] sk hv hsk.2
      obtain rfl := Option.some.inj (z1.symm.trans y1)
      have := small_of_nearPoly (N := 2 ^ n) z2 y2
      rw [z3, hc] at this
      exact ⟨_, this, by ring⟩
  · rintro ⟨h1, h2, h3⟩
    refine ⟨h1, fun t ct ht => ?_⟩
    obtain ⟨hlt, rfl⟩ := List.getElem?_eq_some_iff.1 ht
    have hv := h2 _ (List.getElem_mem hlt)
    obtain ⟨y, z1, z2, z3⟩ := decrypt_phase hN row[t] sk hv hsk.2
    obtain ⟨e, e1, e2⟩ := h3 t hlt
    refine ⟨hv, y, z1, nearPoly_of_small z2 (by simpa using hm) ?_⟩
    rw [z3, hc, e2]
    simpa using e1

theorem glweHolds_iff {n k B : Nat} {sk : List (List (BitVec W))} (hsk : KeyFor sk k (2 ^ n)) {msg : List (BitVec W)} (hm : msg.length = 2 ^ n) {c : Glwe (BitVec W)}
    (hv : c.valid k (2 ^ n)) : (∃ y, glweDecrypt c sk = some y ∧ NearPoly B y msg) ↔ Small (2 ^ n) B (phG (2 ^ n) sk c - cls (2 ^ n) msg) := by
  obtain ⟨y, z1, z2, z3⟩ := decrypt_phase (isPow2_iff.mpr ⟨n, rfl⟩) c sk hv hsk.2
  constructor
  · rintro ⟨y', h1, h2⟩
    obtain rfl := Option.some.inj (z1.symm.trans h1)
    have := small_of_nearPoly (N := 2 ^ n) z2 h2
    rwa [z3] at this
  · intro h
    exact ⟨y, z1, nearPoly_of_small z2 hm (by rw [z3]; exact h)⟩

theorem forall₂_map_iff {A B C : Type} {f : A → B} {R : B → C → Prop} : ∀ {l : List A} {m : List C}, List.Forall₂ R (l.map f) m ↔ List.Forall₂ (fun a c => R (f a) c) l m := by
  intro l m; exact List.forall₂_map_left_iff

theorem ggswHolds_iff {n k B : Nat} {r : Radix} {sk : List (List (BitVec W))} (hsk : KeyFor sk k (2 ^ n)) {b : Bool} {g : List (List (Glwe (BitVec W)))} :
    List.Forall₂ (fun msg row => GlevHolds k (2 ^ n) r sk B msg row)
      ((sk.map fun p => p.map fun x => if b then -x else 0) ++ [(if b then 1 else 0) :: List.replicate (2 ^ n - 1) 0]) g ↔
    GgswOk k (2 ^ n) r.log r.count B sk (if b then 1 else 0) g := by
  have hp := Nat.two_pow_pos n
  have hmsgs : ((sk.map fun p => p.map fun x => if b then -x else 0) ++ [(if b then 1 else 0 : BitVec W) :: List.replicate (2 ^ n - 1) 0]).map (cls (2 ^ n)) =
      ggswMsgs (2 ^ n) (if b then 1 else 0) sk := by
    rw [ggswMsgs, List.map_append, List.map_map, List.map_singleton, bit_cls hp]
    congr 1
    apply List.map_congr_left
    intro p _
    cases b
    · simp only [Function.comp, Bool.false_eq_true, if_false, zero_mul, neg_zero]
      rw [List.map_const', cls_replicate_zero]
    · simp only [Function.comp, if_true, one_mul]
      rw [cls_neg]
  rw [GgswOk, ← hmsgs, forall₂_map_iff]
  have hlen : ∀ msg ∈ ((sk.map fun p => p.map fun x => if b then -x else 0) ++ [(if b then 1 else 0 : BitVec W) :: List.replicate (2 ^ n - 1) 0]), msg.length = 2 ^ n := by
    intro msg hmsg
    simp only [List.mem_append, List.mem_map, List.mem_singleton] at hmsg
    rcases hmsg with ⟨p, hp', rfl⟩ | rfl
    · simpa using hsk.2 p hp'
    · simp; omega
  generalize ((sk.map fun p => p.map fun x => if b then -x else 0) ++ [(if b then 1 else 0 : BitVec W) :: List.replicate (2 ^ n - 1) 0]) = l at hlen
  clear hmsgs
  induction l generalizing g with
  | nil => simp
  | cons m l ih =>
    cases g with
    | nil => simp
    | cons row g =>
      rw [List.forall₂_cons, List.forall₂_cons]
      exact and_congr (glevHolds_iff hsk (hlen m (by simp))) (ih fun x hx => hlen x (by simp [hx]))

/-- `CtHolds`, on phases -/
def Held (P : EvalParams) (n : Nat) (s : List (BitVec W)) (sk : List (List (BitVec W))) (B : Nat) : Ct W → Val → Prop
  | .lwe0 c, .lwe0 b => c.a.length = P.lweDim ∧ Near B (ph s c) (bitTorus W b)
  | .lwe1 c, .lwe1 b => c.a.length = P.glweSize * 2 ^ n ∧ Near B (ph (toLweKey sk) c) (bitTorus W b)
  | .glwe1 c, .glwe1 p => c.valid P.glweSize (2 ^ n) ∧ Small (2 ^ n) B (phG (2 ^ n) sk c - cls (2 ^ n) (bitPoly W (2 ^ n) p))
  | .glev1 c, .glev1 b => GlevOk P.glweSize (2 ^ n) P.cbs.log P.cbs.count B sk (if b then 1 else 0) c
  | .ggsw1 c, .ggsw1 b => GgswOk P.glweSize (2 ^ n) P.cbs.log P.cbs.count B sk (if b then 1 else 0) c
  | _, _ => False

theorem lweHolds_iff {m B : Nat} (hm : 0 < m) {s : List (BitVec W)} {c : Lwe (BitVec W)} {y : BitVec W} :
    (∃ x, lweDecrypt m s c = some x ∧ Near B x y) ↔ c.a.length = m ∧ Near B (ph s c) y := by
  constructor
  · rintro ⟨x, h1, h2⟩
    have hl : c.a.length = m := by
      by_contra hne
      rw [lweDecrypt, if_neg (by tauto)] at h1
      simp at h1
    rw [lweDecrypt, if_pos ⟨by omega, hl⟩] at h1
    obtain rfl := Option.some.inj h1
    exact ⟨hl, h2⟩
  · rintro ⟨h1, h2⟩
    exact ⟨_, by rw [lweDecrypt, if_pos ⟨by omega, h1⟩]; rfl, h2⟩

theorem holds_iff {n v B : Nat} {P : EvalParams} (hP : ParamsOk W n v P) {s : List (BitVec W)} {sk : List (List (BitVec W))} (hsk : KeyFor sk P.glweSize (2 ^ n))
    (c : Ct W) (m : Val) : CtHolds P s sk B c m ↔ Held P n s sk B c m := by
  have hp := Nat.two_pow_pos n
  cases c <;> cases m <;> simp only [CtHolds, Held, hP.degree]
  · exact lweHolds_iff hP.lweDim
  · exact lweHolds_iff (Nat.mul_pos hP.glweSize hp)
  · constructor
    · rintro ⟨h1, h2⟩; exact ⟨h1, (glweHolds_iff hsk (bitPoly_length _ _) h1).1 h2⟩
    · rintro ⟨h1, h2⟩; exact ⟨h1, (glweHolds_iff hsk (bitPoly_length _ _) h1).2 h2⟩
  · exact ggswHolds_iff hsk
  · rename_i c b
    rw [glevHolds_iff hsk (by simp; omega), bit_cls hp]

/-! ### keys -/

/-- a compute key for the level-0 key `s` and the level-1 key `sk` -/
structure KeysOk (P : EvalParams) (n : Nat) (s : List Bool) (sk : List (List (BitVec W))) (ν : NoiseLevels) (K : EvalKey W) : Prop where
  bsk : List.Forall₂ (fun b g => GgswOk P.glweSize (2 ^ n) P.pbs.log P.pbs.count ν.bsk sk (if b then 1 else 0) g) s K.bsk
  akl : K.ak.length = n
  ak : ∀ t (h : t < K.ak.length), AkOk P.glweSize n P.tr ν.ak sk (t + 1) K.ak[t]
  ssk : SskOk P.glweSize (2 ^ n) P.ss.log P.ss.count ν.ssk sk K.ssk
  ksk : ∀ ct : Lwe (BitVec W), ct.a.length = P.glweSize * 2 ^ n → ∃ out x y, keyswitch (P.glweSize * 2 ^ n) P.lweDim P.ks ct K.ksk = some out ∧
    out.a.length = P.lweDim ∧ lweDecrypt (P.glweSize * 2 ^ n) (toLweKey sk) ct = some x ∧ lweDecrypt P.lweDim (bitKey W s) out = some y ∧
    Near (P.glweSize * 2 ^ n * (1 * 2 ^ (W - P.ks.log * P.ks.count - 1) + P.ks.count * (2 ^ (P.ks.log - 1) * ν.ksk))) y x

theorem binary_bound (hW : 2 ≤ W) {sk : List (List (BitVec W))} (hbin : ∀ s ∈ sk, ∀ x ∈ s, x = 0 ∨ x = 1) : KeyBound 1 sk := by
  intro p hp x hx
  rcases hbin p hp x hx with h | h
  · rw [h]; simp
  · rw [h]
    have h1 : (1 : BitVec W) = BitVec.ofNat W 1 := rfl
    have h2 : (2 : Nat) ^ 2 ≤ 2 ^ W := Nat.pow_le_pow_right (by decide) (by omega)
    have h3 : (BitVec.ofNat W 1).toNat = 1 := by rw [BitVec.toNat_ofNat]; exact Nat.mod_eq_of_lt (by omega)
    rw [h1, BitVec.toInt_eq_toNat_of_lt (by omega), h3]; decide

theorem freshOut {d n c : Nat} : FftOutOk d (2 ^ n) (freshGgsw W d (2 ^ n) c) := by
  intro j row hrow
  have hmem : row ∈ freshGgsw W d (2 ^ n) c := List.mem_of_getElem? hrow
  rw [freshGgsw] at hmem
  rw [List.eq_of_mem_replicate hmem]
  split
  · intro y hy
    rw [List.eq_of_mem_replicate hy]
    exact ⟨_, glweZero_encAt d (2 ^ n) j⟩
  · intro y hy
    rw [List.eq_of_mem_replicate hy]
    simp [glweZero]

theorem switched_eq (W d N : Nat) (r : Radix) (E0 Es : Nat) : E0 + ssBound W d N r 1 E0 Es = switchedNoise W d N r 1 E0 Es := by
  rw [ssBound, switchedNoise]

/-- the setting of the operator lemmas -/
structure Setting (W n v : Nat) (P : EvalParams) (s : List Bool) (sk : List (List (BitVec W))) (ν : NoiseLevels) (K : EvalKey W) : Prop where
  params : ParamsOk W n v P
  len : s.length = P.lweDim
  ones : s.count true ≤ ν.ones
  key : KeyFor sk P.glweSize (2 ^ n)
  bin : ∀ p ∈ sk, ∀ x ∈ p, x = 0 ∨ x = 1
  keys : KeysOk P n s sk ν K

variable {n v : Nat} {P : EvalParams} {s : List Bool} {sk : List (List (BitVec W))} {ν : NoiseLevels} {K : EvalKey W}

theorem Setting.small (h : Setting W n v P s sk ν K) : ∀ p ∈ sk, Small (2 ^ n) 1 (cls (2 ^ n) p) :=
  key_small h.key (binary_bound (by have := h.params.levels; omega) h.bin)

theorem allocGgsw_eq (h : P.degree = 2 ^ n) : allocGgsw W P = freshGgsw W P.glweSize (2 ^ n) P.cbs.count := by rw [allocGgsw, freshGgsw, h]

/-- scheme switching -/
theorem schemeSwitch_ok (h : Setting W n v P s sk ν K) {B : Nat} {c : List (Glwe (BitVec W))} {b : Bool}
    (hc : GlevOk P.glweSize (2 ^ n) P.cbs.log P.cbs.count B sk (if b then 1 else 0) c) :
    ∃ g, schemeSwitchFft P.glweSize (2 ^ n) P.cbs P.ss (freshGgsw W P.glweSize (2 ^ n) P.cbs.count) c K.ssk = some g ∧
      GgswOk P.glweSize (2 ^ n) P.cbs.log P.cbs.count (switchedNoise W P.glweSize (2 ^ n) P.ss 1 B ν.ssk) sk (if b then 1 else 0) g := by
  obtain ⟨g, h1, h2⟩ := schemeSwitchFft_spec h.params.ss.1 h.params.ss.2.1 h.params.ss.2.2 sk h.key h.small K.ssk h.keys.ssk _ c hc
    (freshGgsw W P.glweSize (2 ^ n) P.cbs.count) (by simp [freshGgsw]) (fun row hrow => (fresh_ok row hrow).1) freshOut
  exact ⟨g, h1, by rw [← switched_eq]; exact h2⟩

/-- circuit bootstrap -/
theorem bootstrap_ok (h : Setting W n v P s sk ν K) {e : OpErr W} (he : ErrOk P n ν.fft e) {B : Nat} {c : Lwe (BitVec W)} {b : Bool}
    (hl : c.a.length = P.lweDim) (hc : Near B (ph (bitKey W s) c) (bitTorus W b)) (hB : B < bootLimit W P ν) :
    ∃ g, bootstrapCt P K e c = some g ∧ GgswOk P.glweSize (2 ^ n) P.cbs.log P.cbs.count (bootNoise W P ν) sk (if b then 1 else 0) g := by
  obtain ⟨p1, p2, p3, p4⟩ := h.params.levels
  have hlog : Nat.log2 P.degree = n := by rw [h.params.degree, log2_pow]
  have hsmall : B + (s.count true + 1) * 2 ^ (W - (n + 1 - v) - 1) < 2 ^ (W - 2) := by
    rw [bootLimit, hlog, p2, Option.getD_some] at hB
    have := Nat.mul_le_mul_right (2 ^ (W - (n + 1 - v) - 1)) (Nat.add_le_add_right h.ones 1)
    omega
  have hcbs := h.params.cbs
  obtain ⟨lo, y, o1, o2, o3, o4, o5⟩ := hiToLo_spec (F := ν.fft) h.params.pbs.1 h.params.pbs.2.1 h.params.pbs.2.2 h.params.glweSize h.params.lweDim p1 p2
    hcbs.2.2 p3 p4 sk h.key h.small s h.len K.bsk h.keys.bsk e.pbs he.pbs c hl b hc hsmall
  have hcn : P.cbs.count ≤ 2 ^ n := by
    have h1 := ceilLog2_lt p2 (show P.cbs.count - 1 < P.cbs.count by omega)
    have h2 : 2 ^ v ≤ 2 ^ n := Nat.pow_le_pow_right (by decide) (by omega)
    omega
  obtain ⟨glev, g1, g2⟩ := modSwitchTraceRotate_spec (F := ν.fft) h.params.tr.1 h.params.tr.2.1 h.params.tr.2.2 (by omega) (by omega) hcbs.1 hcbs.2.2 hcn
    sk h.key h.small e.trace he.trace e.junk he.junk K.ak h.keys.akl h.keys.ak b lo o2 y o3 o4 o5
  have hb : cbsBound W P.glweSize n P.tr 1 ν.ak ν.fft (P.lweDim * cmuxBound W P.glweSize (2 ^ n) P.pbs 1 ν.bsk ν.fft) =
      circuitNoise W P.glweSize n P.lweDim P.pbs P.tr ν.bsk ν.ak ν.fft := by
    rw [cbsBound, circuitNoise, stepError_eq, glweKsBound, Nat.one_mul, Nat.mul_one, Nat.mul_one]
  rw [hb] at g2
  obtain ⟨g, h1, h2⟩ := schemeSwitch_ok h g2
  refine ⟨g, ?_, by rw [bootNoise, hlog, h.params.degree]; exact h2⟩
  rw [bootstrapCt, allocGgsw_eq h.params.degree, h.params.degree, circuitBootstrap, o1]
  simp only [g1]
  exact h1

/-! ### constants -/

theorem trivialLwe0_ok (hW : 1 < W) (hm : 0 < P.lweDim) (sk : List (BitVec W)) (b : Bool) :
    ∃ c, trivialLwe0 P b = some c ∧ c.a.length = P.lweDim ∧ ph sk c = bitTorus W b := by
  refine ⟨⟨(List.replicate P.lweDim (0 : BitVec W)).map fun _ => 0, bitTorus W b⟩, ?_, by simp, ?_⟩
  · rw [trivialLwe0, encode_bit hW]
    simp only
    rw [lweTrivial, if_pos ⟨by omega, by simp [lweZero]⟩]
    rfl
  · have := dotAcc_zero (List.replicate P.lweDim (0 : BitVec W)) sk
    rw [ph]
    simp only
    rw [this, sub_zero]

theorem encodePoly_const (hW : 1 < W) (m : Nat) (b : Bool) :
    encodePoly ((if b then 1#W else 0#W) :: List.replicate m 0#W) 1 = some (bitTorus W b :: List.replicate m 0) := by
  have hz : encode 0#W 1 = some (0 : BitVec W) := by
    have := encode_bit hW false
    rw [bitTorus_false] at this
    simpa using this
  have hr : (List.replicate m 0#W).mapM (encode · 1) = some (List.replicate m 0) := by
    induction m with
    | zero => rfl
    | succ m ih => rw [List.replicate_succ, List.mapM_cons, hz, ih]; rfl
  rw [encodePoly, List.mapM_cons, encode_bit hW, hr]
  rfl

theorem trivialGlwe1_ok (hW : 1 < W) (hd : P.degree = 2 ^ n) (sk : List (List (BitVec W))) (b : Bool) :
    ∃ c, trivialGlwe1 P b = some c ∧ c.valid P.glweSize (2 ^ n) ∧ phG (2 ^ n) sk c = cls (2 ^ n) (bitPoly W (2 ^ n) (constPoly b)) := by
  have hp := Nat.two_pow_pos n
  have he : (if b then 1 else 0 : BitVec W) = if b then 1#W else 0#W := rfl
  refine ⟨⟨List.replicate P.glweSize (List.replicate (2 ^ n) 0), bitTorus W b :: List.replicate (2 ^ n - 1) 0⟩, ?_, ⟨by simp, ?_, by simp; omega⟩, ?_⟩
  · rw [trivialGlwe1, constMsg, hd, if_neg (by omega)]
    simp only
    rw [he]
    have hz : (List.replicate (2 ^ n - 1) (0 : BitVec W)) = List.replicate (2 ^ n - 1) 0#W := rfl
    rw [hz, encodePoly_const hW]
    rfl
  · intro p hp'
    rw [List.eq_of_mem_replicate hp']; simp
  · rw [phG, bitPoly_const _ hp]
    simp only
    rw [dotC_zeros, sub_zero]

theorem allocGlev_eq (h : P.degree = 2 ^ n) : allocGlev W P = freshGlev W P.glweSize (2 ^ n) P.cbs.count := by rw [allocGlev, freshGlev, h]

theorem trivialGlev1_ok (hP : ParamsOk W n v P) (sk : List (List (BitVec W))) (b : Bool) :
    ∃ c, trivialGlev1 P b = some c ∧ GlevOk P.glweSize (2 ^ n) P.cbs.log P.cbs.count 0 sk (if b then 1 else 0) c := by
  have hp := Nat.two_pow_pos n
  obtain ⟨c1, c2, c3⟩ := hP.cbs
  cases b
  · refine ⟨freshGlev W P.glweSize (2 ^ n) P.cbs.count, by simp [trivialGlev1, allocGlev_eq hP.degree], by simp [freshGlev], ?_, ?_⟩
    · intro r hr
      exact (freshGlev_ok.2 r hr).1
    · intro t ht
      refine ⟨0, Tfhe.small_zero, ?_⟩
      simp only [freshGlev, List.getElem_replicate, Bool.false_eq_true, if_false, zero_mul, add_zero]
      exact glweZero_phase _ _
  · have hl : ((1 : BitVec W) :: List.replicate (2 ^ n - 1) 0).length = 2 ^ n := by simp; omega
    obtain ⟨row, h1, h2, h3, h4⟩ := glevTrivialRows_spec (k := P.glweSize) (c := P.cbs.count) hP.width c1 (by omega) ((1 : BitVec W) :: List.replicate (2 ^ n - 1) 0) hl
      sk 0 P.cbs.count (by omega)
    have hv : P.cbs.valid W = true := by
      have := Nat.mul_comm P.cbs.log P.cbs.count
      simp only [Radix.valid, Bool.and_eq_true, decide_eq_true_eq]; omega
    refine ⟨row, ?_, h2, h3, fun t ht => ⟨0, Tfhe.small_zero, ?_⟩⟩
    · rw [trivialGlev1, if_pos rfl, constMsg, hP.degree, if_neg (by omega)]
      simp only [if_true]
      rw [allocGlev_eq hP.degree, glevTrivial, if_pos ⟨hv, by simp [freshGlev], hl⟩]
      exact h1
    · rw [h4 t ht, Nat.zero_add, add_zero]
      congr 1
      have := bit_cls (W := W) hp true
      simpa using this

/-! ### linear operators -/

theorem getD_rot {α : Type} (l : List α) (s i : Nat) (hs : s < l.length) (hi : i < l.length) :
    (rotR l s)[i]? = l[(i + (l.length - s)) % l.length]? := by
  rw [rotR]
  rcases Nat.lt_or_ge i s with h | h
  · rw [List.getElem?_append_left (by simp; omega), List.getElem?_drop, Nat.mod_eq_of_lt (by omega)]
    congr 1; omega
  · rw [List.getElem?_append_right (by simp; omega), List.length_drop, List.getElem?_take, if_pos (by omega)]
    congr 1
    rw [show i + (l.length - s) = i - (l.length - (l.length - s)) + l.length by omega, Nat.add_mod_right, Nat.mod_eq_of_lt (by omega)]

theorem negate_id {l : List (BitVec W)} (h : ∀ x ∈ l, -x = x) (lo hi : Nat) : negateRange l lo hi = l := by
  apply List.ext_getElem (by simp [negateRange])
  intro i h1 h2
  simp only [negateRange, List.getElem_mapIdx]
  split
  · exact h _ (List.getElem_mem _)
  · rfl

/-- the rotation of a bit polynomial -/
theorem bitPoly_rot (hW : 0 < W) (N m : Nat) (hN : 0 < N) (p : Nat → Bool) :
    mulByMonomial (bitPoly W N p) (m : Int) = some (bitPoly W N fun i => decide (i < N) && p ((i + (N - m % N)) % N)) := by
  have hl := bitPoly_length (W := W) N p
  have hneg : ∀ x ∈ bitPoly W N p, -x = x := by
    intro x hx
    simp only [bitPoly, List.mem_map] at hx
    obtain ⟨i, _, rfl⟩ := hx
    exact bitTorus_neg hW _
  have hrot : ∀ s, s < N → rotR (bitPoly W N p) s = bitPoly W N fun i => decide (i < N) && p ((i + (N - s)) % N) := by
    intro s hs
    apply List.ext_getElem? 
    intro i
    rcases Nat.lt_or_ge i N with h | h
    · rw [getD_rot _ _ _ (by rw [hl]; exact hs) (by rw [hl]; exact h), hl]
      have := Nat.mod_lt (i + (N - s)) hN
      simp [bitPoly, h, this]
    · rw [List.getElem?_eq_none (by simp [rotR, hl]; omega), List.getElem?_eq_none (by rw [bitPoly_length]; exact h)]
  have hmod : m % N = m % (2 * N) % N := by rw [Nat.mod_mul_left_mod]
  have hlt := Nat.mod_lt m (show 0 < 2 * N by omega)
  have hself : mulByPosMonomial (bitPoly W N p) m = some (rotR (bitPoly W N p) (m % N)) := by
    rw [mulByPosMonomial]
    simp only [hl]
    rw [if_neg (by omega)]
    have hid : (bitPoly W N p).map (fun x => -x) = bitPoly W N p := by
      conv_rhs => rw [← List.map_id (bitPoly W N p)]
      exact List.map_congr_left fun x hx => by simpa using hneg x hx
    have h0 : rotR (bitPoly W N p) 0 = bitPoly W N p := by simp [rotR]
    by_cases e1 : m % (2 * N) = 0
    · rw [if_pos e1, hmod, e1, Nat.zero_mod, h0]
    · rw [if_neg e1]
      by_cases e2 : m % (2 * N) = N
      · rw [if_pos e2, hmod, e2, Nat.mod_self, h0, hid]
      · rw [if_neg e2, ← hmod]
        have hr : ∀ x ∈ rotR (bitPoly W N p) (m % N), -x = x := by
          intro x hx
          simp only [rotR, List.mem_append] at hx
          rcases hx with hx | hx
          · exact hneg x (List.mem_of_mem_drop hx)
          · exact hneg x (List.mem_of_mem_take hx)
        rw [negate_id hr, negate_id hr, ite_self]
  rw [mulByMonomial, if_neg (by omega)]
  simp only [Int.natAbs_natCast]
  rw [hself, hrot _ (Nat.mod_lt _ hN)]

theorem small_xpow {N B : Nat} {x : Nega (BitVec W) N} (h : Small N B x) (m : Nat) : Small N B (xcls N ^ m * x) := by
  induction m with
  | zero => simpa using h
  | succ m ih => rw [pow_succ', mul_assoc]; exact ih.xmul

theorem monomial_ok (hW : 0 < W) {k B m : Nat} {sk : List (List (BitVec W))} (hsk : KeyFor sk k (2 ^ n)) {c : Glwe (BitVec W)} (hv : c.valid k (2 ^ n)) {p : Nat → Bool}
    (hc : Small (2 ^ n) B (phG (2 ^ n) sk c - cls (2 ^ n) (bitPoly W (2 ^ n) p))) :
    ∃ d, glweMonomial c (m : Int) = some d ∧ d.valid k (2 ^ n) ∧
      Small (2 ^ n) B (phG (2 ^ n) sk d - cls (2 ^ n) (bitPoly W (2 ^ n) fun i => decide (i < 2 ^ n) && p ((i + (2 ^ n - m % 2 ^ n)) % 2 ^ n))) := by
  have hN : isPow2 (2 ^ n) = true := isPow2_iff.mpr ⟨n, rfl⟩
  have hp := Nat.two_pow_pos n
  obtain ⟨d, ma, h1, h2, h3, h4, h5⟩ := C52_monomial n k c (m : Int) sk hv hsk
  obtain ⟨ma', a1, a2, a3⟩ := decrypt_phase hN c sk hv hsk.2
  obtain rfl := Option.some.inj (a1.symm.trans h3)
  obtain ⟨md, b1, b2, b3⟩ := decrypt_phase hN d sk h2 hsk.2
  have hne : ∀ l : List (BitVec W), l.length = 2 ^ n → l ≠ [] := by
    intro l hl e; rw [e] at hl; simp at hl; omega
  obtain ⟨q, q1, q2, q3, _⟩ := C46_rotation ma' (m : Int) (hne _ a2)
  obtain ⟨r, r1, r2, r3, _⟩ := C46_rotation (bitPoly W (2 ^ n) p) (m : Int) (hne _ (bitPoly_length _ _))
  rw [a2] at q3
  rw [bitPoly_length] at r3
  rw [bitPoly_rot hW _ _ hp] at r1
  obtain rfl := Option.some.inj r1
  rw [b1, q1] at h4
  obtain rfl := Option.some.inj h4
  refine ⟨d, h1, h2, ?_⟩
  rw [← b3, q3 (by omega), r3 (by omega), a3, ← mul_sub]
  exact small_xpow hc _

/-! ### multiplexers and products -/

theorem muxNoise_eq (h : P.degree = 2 ^ n) (E : Nat) : muxNoise W P ν E = cmuxBound W P.glweSize (2 ^ n) P.cbs 1 E ν.fft := by
  rw [muxNoise, cmuxError, cmuxBound, h]

theorem fftErr_small {k F : Nat} {fe : Glwe (BitVec W)} (h : FftErr k (2 ^ n) F fe) :
    (∀ a ∈ fe.a, Small (2 ^ n) F (cls (2 ^ n) a)) ∧ Small (2 ^ n) F (cls (2 ^ n) fe.b) :=
  ⟨fun a ha => small_of_bound (h.1.2.1 a ha) (h.2 a (by simp [ha])), small_of_bound h.1.2.2 (h.2 _ (by simp))⟩

theorem cmux_ok (h : Setting W n v P s sk ν K) {fe : Glwe (BitVec W)} (hfe : FftErr P.glweSize (2 ^ n) ν.fft fe) {Bs B0 B1 : Nat} {b : Bool} {g : List (List (Glwe (BitVec W)))}
    (hg : GgswOk P.glweSize (2 ^ n) P.cbs.log P.cbs.count Bs sk (if b then 1 else 0) g) {d0 d1 : Glwe (BitVec W)} (h0 : d0.valid P.glweSize (2 ^ n))
    (h1 : d1.valid P.glweSize (2 ^ n)) {m0 m1 : Nega (BitVec W) (2 ^ n)} (hm0 : Small (2 ^ n) B0 (phG (2 ^ n) sk d0 - m0))
    (hm1 : Small (2 ^ n) B1 (phG (2 ^ n) sk d1 - m1)) :
    ∃ out, cmux P.glweSize (2 ^ n) P.cbs fe d0 d1 g = some out ∧ out.valid P.glweSize (2 ^ n) ∧
      Small (2 ^ n) (max B0 B1 + muxNoise W P ν Bs) (phG (2 ^ n) sk out - if b then m1 else m0) := by
  obtain ⟨c1, c2, c3⟩ := h.params.cbs
  obtain ⟨f1, f2⟩ := fftErr_small hfe
  obtain ⟨out, o1, o2, o3⟩ := cmux_spec (F := ν.fft) (isPow2_iff.mpr ⟨n, rfl⟩) c1 c2 (by omega) sk h.key.1 h.small b g hg fe d0 d1 hfe.1 h0 h1 f1 f2
  refine ⟨out, o1, o2, ?_⟩
  rw [muxNoise_eq h.params.degree, Nat.add_comm]
  have hb : Small (2 ^ n) (max B0 B1) (phG (2 ^ n) sk (if b then d1 else d0) - if b then m1 else m0) := by
    cases b
    · exact hm0.mono (Nat.le_max_left _ _)
    · exact hm1.mono (Nat.le_max_right _ _)
  have := o3.add hb
  rwa [sub_add_sub_cancel] at this

theorem glevCmux_ok (h : Setting W n v P s sk ν K) {fe : Nat → Glwe (BitVec W)} (hfe : ∀ i, FftErr P.glweSize (2 ^ n) ν.fft (fe i)) {Bs B0 B1 : Nat} {b : Bool}
    {g : List (List (Glwe (BitVec W)))} (hg : GgswOk P.glweSize (2 ^ n) P.cbs.log P.cbs.count Bs sk (if b then 1 else 0) g)
    (m0 m1 : Nat → Nega (BitVec W) (2 ^ n)) : ∀ (j : Nat) (d0 d1 : List (Glwe (BitVec W))), d0.length = d1.length →
    (∀ x ∈ d0, x.valid P.glweSize (2 ^ n)) → (∀ x ∈ d1, x.valid P.glweSize (2 ^ n)) →
    (∀ t (ht : t < d0.length), Small (2 ^ n) B0 (phG (2 ^ n) sk d0[t] - m0 (j + t))) →
    (∀ t (ht : t < d1.length), Small (2 ^ n) B1 (phG (2 ^ n) sk d1[t] - m1 (j + t))) →
    ∃ out, glevCmux P.glweSize (2 ^ n) P.cbs fe g j d0 d1 = some out ∧ out.length = d0.length ∧ (∀ x ∈ out, x.valid P.glweSize (2 ^ n)) ∧
      ∀ t (ht : t < out.length), Small (2 ^ n) (max B0 B1 + muxNoise W P ν Bs) (phG (2 ^ n) sk out[t] - if b then m1 (j + t) else m0 (j + t))
  | j, [], [], _, _, _, _, _ => ⟨[], by simp [glevCmux], rfl, by simp, by intro t ht; simp at ht⟩
  | _, [], _ :: _, hl, _, _, _, _ => by simp at hl
  | _, _ :: _, [], hl, _, _, _, _ => by simp at hl
  | j, x :: d0, y :: d1, hl, hv0, hv1, hm0, hm1 => by
    obtain ⟨c, c1, c2, c3⟩ := cmux_ok h (hfe j) hg (hv0 x (by simp)) (hv1 y (by simp)) (hm0 0 (by simp)) (hm1 0 (by simp))
    obtain ⟨out, o1, o2, o3, o4⟩ := glevCmux_ok h hfe hg m0 m1 (j + 1) d0 d1 (by simpa using hl) (fun z hz => hv0 z (by simp [hz])) (fun z hz => hv1 z (by simp [hz]))
      (fun t ht => by have := hm0 (t + 1) (by simpa using ht); rwa [show j + (t + 1) = j + 1 + t by omega] at this)
      (fun t ht => by have := hm1 (t + 1) (by simpa using ht); rwa [show j + (t + 1) = j + 1 + t by omega] at this)
    refine ⟨c :: out, by rw [glevCmux, c1]; simp only [o1], by simp [o2], ?_, ?_⟩
    · intro z hz
      simp only [List.mem_cons] at hz
      rcases hz with rfl | hz
      · exact c2
      · exact o3 z hz
    · intro t ht
      cases t with
      | zero => exact c3
      | succ t =>
        have := o4 t (by simpa using ht)
        rwa [show j + 1 + t = j + (t + 1) by omega] at this

theorem glevCmux_held (h : Setting W n v P s sk ν K) {fe : Nat → Glwe (BitVec W)} (hfe : ∀ i, FftErr P.glweSize (2 ^ n) ν.fft (fe i)) {Bs B0 B1 : Nat} {b b0 b1 : Bool}
    {g : List (List (Glwe (BitVec W)))} (hg : GgswOk P.glweSize (2 ^ n) P.cbs.log P.cbs.count Bs sk (if b then 1 else 0) g) {d0 d1 : List (Glwe (BitVec W))}
    (h0 : GlevOk P.glweSize (2 ^ n) P.cbs.log P.cbs.count B0 sk (if b0 then 1 else 0) d0) (h1 : GlevOk P.glweSize (2 ^ n) P.cbs.log P.cbs.count B1 sk (if b1 then 1 else 0) d1) :
    ∃ out, glevCmux P.glweSize (2 ^ n) P.cbs fe g 0 d0 d1 = some out ∧
      GlevOk P.glweSize (2 ^ n) P.cbs.log P.cbs.count (max B0 B1 + muxNoise W P ν Bs) sk (if (bif b then b1 else b0) then 1 else 0) out := by
  obtain ⟨out, o1, o2, o3, o4⟩ := glevCmux_ok h hfe hg
    (fun t => (if b0 then 1 else 0) * em (2 ^ n) (BitVec.ofNat W (2 ^ (W - P.cbs.log * (t + 1)))))
    (fun t => (if b1 then 1 else 0) * em (2 ^ n) (BitVec.ofNat W (2 ^ (W - P.cbs.log * (t + 1))))) 0 d0 d1 (by rw [h0.1, h1.1]) h0.2.1 h1.2.1
    (fun t ht => by obtain ⟨e, e1, e2⟩ := h0.2.2 t ht; rw [Nat.zero_add, e2]; simpa using e1)
    (fun t ht => by obtain ⟨e, e1, e2⟩ := h1.2.2 t ht; rw [Nat.zero_add, e2]; simpa using e1)
  refine ⟨out, o1, by rw [o2, h0.1], o3, fun t ht => ⟨_, o4 t ht, ?_⟩⟩
  rw [Nat.zero_add]
  cases b <;> simp

theorem multiply_ok (h : Setting W n v P s sk ν K) {fe : Glwe (BitVec W)} (hfe : FftErr P.glweSize (2 ^ n) ν.fft fe) {Bs B : Nat} {b : Bool} {g : List (List (Glwe (BitVec W)))}
    (hg : GgswOk P.glweSize (2 ^ n) P.cbs.log P.cbs.count Bs sk (if b then 1 else 0) g) {x : Glwe (BitVec W)} (hx : x.valid P.glweSize (2 ^ n)) {m : Nega (BitVec W) (2 ^ n)}
    (hm : Small (2 ^ n) B (phG (2 ^ n) sk x - m)) :
    ∃ out, multiplyCt P fe x g = some out ∧ out.valid P.glweSize (2 ^ n) ∧
      Small (2 ^ n) (B + muxNoise W P ν Bs) (phG (2 ^ n) sk out - if b then m else 0) := by
  obtain ⟨c1, c2, c3⟩ := h.params.cbs
  obtain ⟨f1, f2⟩ := fftErr_small hfe
  obtain ⟨ex, ρ, ν', x1, x2, x3, x4, x5⟩ := externalProduct_spec (isPow2_iff.mpr ⟨n, rfl⟩) c1 c2 (by omega) sk h.key.1 h.small _ g hg x hx
  obtain ⟨out, o1, o2, o3⟩ := add_phase ex fe sk x2 hfe.1
  refine ⟨out, by rw [multiplyCt, h.params.degree, x1]; exact o1, o2, ?_⟩
  have hf : Small (2 ^ n) (ν.fft + P.glweSize * (2 ^ n * (ν.fft * 1))) (phG (2 ^ n) sk fe) := by
    have := fe_small (F := ν.fft) (S := 1) sk fe.a (by rw [hfe.1.1, h.key.1]) h.small f1
    rw [h.key.1] at this
    exact f2.sub this
  have key : phG (2 ^ n) sk out - (if b then m else 0) = (if b then phG (2 ^ n) sk x - m else 0) + ((if b then ρ else 0) + ν' + phG (2 ^ n) sk fe) := by
    rw [o3, x5]
    cases b
    · simp
    · simp; ring
  rw [key, muxNoise_eq h.params.degree, cmuxBound]
  refine Small.add ?_ ((Small.add ?_ x4).add hf)
  · cases b
    · exact Tfhe.small_zero.mono (Nat.zero_le _)
    · exact hm
  · cases b
    · exact Tfhe.small_zero.mono (Nat.zero_le _)
    · exact x3

/-! ### one operator -/

/-- an input: a ciphertext, the message it holds, the noise bound -/
abbrev Tri (W : Nat) := (Ct W × Val × Nat) × FheEdge

def ctIns (xs : List (Tri W)) : List (Ct W × FheEdge) := xs.map fun x => (x.1.1, x.2)
def valIns (xs : List (Tri W)) : List (Val × FheEdge) := xs.map fun x => (x.1.2.1, x.2)
def noiseIns (xs : List (Tri W)) : List (Nat × FheEdge) := xs.map fun x => (x.1.2.2, x.2)

theorem pick_held {R : Nat → Ct W → Val → Prop} {xs : List (Tri W)} (h : ∀ x ∈ xs, R x.1.2.2 x.1.1 x.1.2.1) {k : FheEdge} {u : Val} (hp : pick (valIns xs) k = some u) :
    ∃ c B, pickCt (ctIns xs) k = some c ∧ pickNoise (noiseIns xs) k = some B ∧ R B c u := by
  rw [pick, valIns, List.find?_map] at hp
  have e : ((fun p : Val × FheEdge => p.2 == k) ∘ fun x : Tri W => (x.1.2.1, x.2)) = fun x => x.2 == k := rfl
  rw [e] at hp
  cases hf : xs.find? (fun x => x.2 == k) with
  | none => rw [hf] at hp; simp at hp
  | some x =>
    rw [hf] at hp
    simp only [Option.map_some, Option.some.injEq] at hp
    subst hp
    refine ⟨x.1.1, x.1.2.2, ?_, ?_, h x (List.mem_of_find?_eq_some hf)⟩
    · rw [pickCt, ctIns, List.find?_map]
      have e : ((fun p : Ct W × FheEdge => p.2 == k) ∘ fun x : Tri W => (x.1.1, x.2)) = fun x => x.2 == k := rfl
      rw [e, hf]; rfl
    · rw [pickNoise, noiseIns, List.find?_map]
      have e : ((fun p : Nat × FheEdge => p.2 == k) ∘ fun x : Tri W => (x.1.2.2, x.2)) = fun x => x.2 == k := rfl
      rw [e, hf]; rfl

theorem sampleExtract_ok (h : Setting W n v P s sk ν K) {i B : Nat} (hi : i < 2 ^ n) {c : Glwe (BitVec W)} {p : Nat → Bool} (hc : Held P n (bitKey W s) sk B (.glwe1 c) (.glwe1 p)) :
    ∃ l, sampleExtract (2 ^ n) i c = some l ∧ Held P n (bitKey W s) sk B (.lwe1 l) (.lwe1 (p i)) := by
  obtain ⟨hv, hs⟩ := hc
  obtain ⟨l, m, h1, h2, h3, h4, h5⟩ := C49_sample_extract n P.glweSize i h.params.glweSize hi c sk hv h.key
  obtain ⟨y, y1, y2⟩ := (glweHolds_iff h.key (bitPoly_length _ _) hv).2 hs
  obtain rfl := Option.some.inj (h2.symm.trans y1)
  have hmi : m[i]? = some m[i] := List.getElem?_eq_getElem (by omega)
  have hnear : Near B m[i] (bitTorus W (p i)) := by
    have := List.Forall₂.get y2 (i := i) (by omega) (by rw [bitPoly_length]; exact hi)
    simpa [bitPoly] using this
  rw [hmi] at h4
  exact ⟨l, h1, (lweHolds_iff (Nat.mul_pos h.params.glweSize (Nat.two_pow_pos n))).1 ⟨_, h4, hnear⟩⟩

theorem keyswitch_ok (h : Setting W n v P s sk ν K) {B : Nat} {c : Lwe (BitVec W)} {b : Bool} (hc : Held P n (bitKey W s) sk B (.lwe1 c) (.lwe1 b)) :
    ∃ l, keyswitch (P.glweSize * 2 ^ n) P.lweDim P.ks c K.ksk = some l ∧ Held P n (bitKey W s) sk (B + ksNoise W P ν) (.lwe0 l) (.lwe0 b) := by
  obtain ⟨hl, hn⟩ := hc
  obtain ⟨out, x, y, k1, k2, k3, k4, k5⟩ := h.keys.ksk c hl
  obtain ⟨x', x1, x2⟩ := (lweHolds_iff (Nat.mul_pos h.params.glweSize (Nat.two_pow_pos n))).2 ⟨hl, hn⟩
  obtain rfl := Option.some.inj (k3.symm.trans x1)
  refine ⟨out, k1, (lweHolds_iff h.params.lweDim).1 ⟨y, k4, ?_⟩⟩
  have := Tfhe.Near.trans k5 x2
  rw [ksNoise, h.params.degree, Nat.add_comm]
  rwa [Nat.one_mul] at this

theorem type_eq {B : Nat} {s : List (BitVec W)} {c : Ct W} {m : Val} (h : Held P n s sk B c m) : c.type = m.type := by
  cases c <;> cases m <;> simp only [Held] at h <;> rfl

theorem add_ok (h : Setting W n v P s sk ν K) {B0 B1 : Nat} {a b : Glwe (BitVec W)} {p q : Nat → Bool} (ha : Held P n (bitKey W s) sk B0 (.glwe1 a) (.glwe1 p))
    (hb : Held P n (bitKey W s) sk B1 (.glwe1 b) (.glwe1 q)) :
    ∃ c, glweAdd a b = some c ∧ Held P n (bitKey W s) sk (B0 + B1) (.glwe1 c) (.glwe1 fun i => Bool.xor (p i) (q i)) := by
  obtain ⟨c, c1, c2, c3⟩ := add_phase a b sk ha.1 hb.1
  refine ⟨c, c1, c2, ?_⟩
  rw [c3, ← bitPoly_xor (by have := h.params.levels; omega), add_sub_add_comm]
  exact ha.2.add hb.2

/-- An operator computes on ciphertexts what it computes on the messages they hold. -/
theorem execCt_ok (h : Setting W n v P s sk ν K) {err : FheOp → List (Ct W × FheEdge) → OpErr W} (he : ∀ op ins, ErrOk P n ν.fft (err op ins))
    {cells : CtType → Nat → Ct W} {vals : CtType → Nat → Val} {nz : CtType → Nat → Nat} 
    (op : FheOp) (hcells : ∀ t c, op = .input t c → Held P n (bitKey W s) sk (nz t c) (cells t c) (vals t c)) (xs : List (Tri W)) (hx : ∀ x ∈ xs, Held P n (bitKey W s) sk x.1.2.2 x.1.1 x.1.2.1) {u : Val} (hu : execOp P.degree vals op (valIns xs) = some u)
    {B : Nat} (hB : noiseOp W P ν nz op (noiseIns xs) = some B) :
    ∃ c, execCt P K err cells op (ctIns xs) = some c ∧ Held P n (bitKey W s) sk B c u := by
  have hW : 1 < W := by have := h.params.levels; omega
  have hbl : ∀ {b : Bool} {e : OpErr W}, ErrOk P n ν.fft e → 0 < bootLimit W P ν → ∃ c g, trivialLwe0 P b = some c ∧ bootstrapCt P K e c = some g ∧
      GgswOk P.glweSize (2 ^ n) P.cbs.log P.cbs.count (bootNoise W P ν) sk (if b then 1 else 0) g := by
    intro b e hee h0
    obtain ⟨c, c1, c2, c3⟩ := trivialLwe0_ok hW h.params.lweDim (bitKey W s) b
    obtain ⟨g, g1, g2⟩ := bootstrap_ok h hee (B := 0) (b := b) c2 (by rw [c3]; exact Near.refl _) h0
    exact ⟨c, g, c1, g1, g2⟩
  match xs with
  | [] =>
    simp only [valIns, noiseIns, ctIns, List.map_nil] at hu hB ⊢
    cases op <;> simp only [execOp, Option.some.injEq, reduceCtorEq] at hu <;> subst hu <;> simp only [noiseOp, Option.some.injEq] at hB <;>
      simp only [execCt]
    case input t c => subst hB; exact ⟨_, rfl, hcells t c rfl⟩
    case zeroLwe0 =>
      subst hB
      obtain ⟨c, c1, c2, c3⟩ := trivialLwe0_ok hW h.params.lweDim (bitKey W s) false
      exact ⟨.lwe0 c, by rw [c1]; rfl, c2, by rw [c3]; exact Near.refl _⟩
    case oneLwe0 =>
      subst hB
      obtain ⟨c, c1, c2, c3⟩ := trivialLwe0_ok hW h.params.lweDim (bitKey W s) true
      exact ⟨.lwe0 c, by rw [c1]; rfl, c2, by rw [c3]; exact Near.refl _⟩
    case zeroGlwe1 =>
      subst hB
      obtain ⟨c, c1, c2, c3⟩ := trivialGlwe1_ok hW h.params.degree sk false
      exact ⟨.glwe1 c, by rw [c1]; rfl, c2, by rw [c3, sub_self]; exact Tfhe.small_zero⟩
    case oneGlwe1 =>
      subst hB
      obtain ⟨c, c1, c2, c3⟩ := trivialGlwe1_ok hW h.params.degree sk true
      exact ⟨.glwe1 c, by rw [c1]; rfl, c2, by rw [c3, sub_self]; exact Tfhe.small_zero⟩
    case zeroGlev1 =>
      subst hB
      obtain ⟨c, c1, c2⟩ := trivialGlev1_ok h.params sk false
      exact ⟨.glev1 c, by rw [c1]; rfl, c2⟩
    case oneGlev1 =>
      subst hB
      obtain ⟨c, c1, c2⟩ := trivialGlev1_ok h.params sk true
      exact ⟨.glev1 c, by rw [c1]; rfl, c2⟩
    case zeroGgsw1 =>
      split at hB
      · rename_i h0
        obtain rfl := Option.some.inj hB
        obtain ⟨c, g, c1, g1, g2⟩ := hbl (b := false) (he .zeroGgsw1 []) h0
        exact ⟨.ggsw1 g, by rw [c1, Option.bind_some, g1]; rfl, g2⟩
      · simp at hB
    case oneGgsw1 =>
      split at hB
      · rename_i h0
        obtain rfl := Option.some.inj hB
        obtain ⟨c, g, c1, g1, g2⟩ := hbl (b := true) (he .oneGgsw1 []) h0
        exact ⟨.ggsw1 g, by rw [c1, Option.bind_some, g1]; rfl, g2⟩
      · simp at hB
  | [((c, m, b), e)] =>
    simp only [valIns, noiseIns, ctIns, List.map_cons, List.map_nil] at hu hB ⊢
    have hc := hx _ (List.mem_singleton.2 rfl)
    simp only at hc
    cases op
    case output t x =>
      cases e <;> simp only [execOp, reduceCtorEq] at hu
      simp only [noiseOp, Option.some.injEq] at hB
      subst hB
      split at hu
      · rename_i ht
        obtain rfl := Option.some.inj hu
        exact ⟨c, by simp only [execCt]; rw [if_pos (by rw [type_eq hc]; exact ht)], hc⟩
      · simp at hu
    case sampleExtract i =>
      cases e <;> cases m <;> simp only [execOp, reduceCtorEq] at hu
      cases c <;> simp only [Held] at hc
      simp only [noiseOp, Option.some.injEq] at hB
      subst hB
      split at hu
      · rename_i hi
        obtain rfl := Option.some.inj hu
        obtain ⟨l, l1, l2⟩ := sampleExtract_ok h (by rw [← h.params.degree]; exact hi) hc
        exact ⟨_, by simp only [execCt]; rw [if_pos hi, h.params.degree, l1]; rfl, l2⟩
      · simp at hu
    case keyswitchL1toL0 =>
      cases e <;> cases m <;> simp only [execOp, reduceCtorEq, Option.some.injEq] at hu
      cases c <;> simp only [Held] at hc
      simp only [noiseOp, Option.some.injEq] at hB
      subst hB hu
      obtain ⟨l, l1, l2⟩ := keyswitch_ok h hc
      exact ⟨_, by simp only [execCt]; rw [h.params.degree, l1]; rfl, l2⟩
    case circuitBootstrap =>
      cases e <;> cases m <;> simp only [execOp, reduceCtorEq, Option.some.injEq] at hu
      cases c <;> simp only [Held] at hc
      simp only [noiseOp] at hB
      split at hB
      · rename_i hlim
        obtain rfl := Option.some.inj hB
        subst hu
        obtain ⟨g, g1, g2⟩ := bootstrap_ok h (he _ _) hc.1 hc.2 hlim
        exact ⟨.ggsw1 g, by simp only [execCt]; rw [g1]; rfl, g2⟩
      · simp at hB
    case schemeSwitch =>
      cases e <;> cases m <;> simp only [execOp, reduceCtorEq, Option.some.injEq] at hu
      cases c <;> simp only [Held] at hc
      simp only [noiseOp, Option.some.injEq] at hB
      subst hB hu
      obtain ⟨g, g1, g2⟩ := schemeSwitch_ok h hc
      exact ⟨.ggsw1 g, by simp only [execCt]; rw [allocGgsw_eq h.params.degree, h.params.degree, g1]; rfl, by rw [h.params.degree]; exact g2⟩
    case not =>
      cases e <;> cases m <;> simp only [execOp, reduceCtorEq, Option.some.injEq] at hu
      cases c <;> simp only [Held] at hc
      simp only [noiseOp, Option.some.injEq] at hB
      subst hB hu
      obtain ⟨o, o1, o2, o3⟩ := trivialGlwe1_ok hW h.params.degree sk true
      obtain ⟨d, d1, d2⟩ := add_ok h (B1 := 0) (b := o) (q := constPoly true) hc ⟨o2, by rw [o3, sub_self]; exact Tfhe.small_zero⟩
      exact ⟨.glwe1 d, by simp only [execCt]; rw [o1, Option.bind_some, d1]; rfl, d2⟩
    case mulXN i =>
      cases e <;> cases m <;> simp only [execOp, reduceCtorEq, Option.some.injEq] at hu
      cases c <;> simp only [Held] at hc
      simp only [noiseOp, Option.some.injEq] at hB
      subst hB hu
      obtain ⟨d, d1, d2, d3⟩ := monomial_ok (m := i) (by omega) h.key hc.1 hc.2
      exact ⟨.glwe1 d, by simp only [execCt]; rw [d1]; rfl, d2, by rw [h.params.degree]; exact d3⟩
    all_goals (cases e <;> simp [execOp] at hu)
  | [x, y] =>
    cases op <;> simp only [valIns, List.map_cons, List.map_nil, execOp, reduceCtorEq] at hu
    case glweAdd =>
      cases h1 : pick (valIns [x, y]) .left with
      | none => simp only [valIns, List.map_cons, List.map_nil] at h1; rw [h1] at hu; simp at hu
      | some p =>
        cases h2 : pick (valIns [x, y]) .right with
        | none => simp only [valIns, List.map_cons, List.map_nil] at h2; rw [h2] at hu; simp at hu
        | some q =>
          obtain ⟨cp, Bp, p1, p2, p3⟩ := pick_held (R := Held P n (bitKey W s) sk) hx h1
          obtain ⟨cq, Bq, q1, q2, q3⟩ := pick_held (R := Held P n (bitKey W s) sk) hx h2
          simp only [valIns, List.map_cons, List.map_nil] at h1 h2
          rw [h1, h2] at hu
          simp only [noiseIns, List.map_cons, List.map_nil] at p2 q2 hB
          simp only [noiseOp, p2, q2, Option.some.injEq] at hB
          simp only [ctIns, List.map_cons, List.map_nil] at p1 q1 ⊢
          simp only [execCt, p1, q1]
          cases p <;> cases q <;> simp only [reduceCtorEq, Option.some.injEq] at hu
          cases cp <;> cases cq <;> simp only [Held] at p3 q3
          subst hB hu
          obtain ⟨d, d1, d2⟩ := add_ok h p3 q3
          exact ⟨_, by simp only [d1]; rfl, d2⟩
    case multiplyGgswGlwe =>
      cases h1 : pick (valIns [x, y]) .glwe with
      | none => simp only [valIns, List.map_cons, List.map_nil] at h1; rw [h1] at hu; simp at hu
      | some p =>
        cases h2 : pick (valIns [x, y]) .ggsw with
        | none => simp only [valIns, List.map_cons, List.map_nil] at h2; rw [h2] at hu; simp at hu
        | some q =>
          obtain ⟨cp, Bp, p1, p2, p3⟩ := pick_held (R := Held P n (bitKey W s) sk) hx h1
          obtain ⟨cq, Bq, q1, q2, q3⟩ := pick_held (R := Held P n (bitKey W s) sk) hx h2
          simp only [valIns, List.map_cons, List.map_nil] at h1 h2
          rw [h1, h2] at hu
          simp only [noiseIns, List.map_cons, List.map_nil] at p2 q2 hB
          simp only [noiseOp, p2, q2, Option.some.injEq] at hB
          simp only [ctIns, List.map_cons, List.map_nil] at p1 q1 ⊢
          simp only [execCt, p1, q1]
          cases p <;> cases q <;> simp only [reduceCtorEq, Option.some.injEq] at hu
          cases cp <;> cases cq <;> simp only [Held] at p3 q3
          subst hB hu
          rename_i f bb cg cs
          obtain ⟨d, d1, d2, d3⟩ := multiply_ok h ((he .multiplyGgswGlwe [(x.1.1, x.2), (y.1.1, y.2)]).out 0) q3 p3.1 p3.2
          refine ⟨.glwe1 d, by simp only [d1]; rfl, d2, ?_⟩
          have : cls (2 ^ n) (bitPoly W (2 ^ n) fun i => bb && f i) = if bb then cls (2 ^ n) (bitPoly W (2 ^ n) f) else 0 := by
            cases bb
            · simp only [Bool.false_and, Bool.false_eq_true, if_false]
              have : bitPoly W (2 ^ n) (fun _ => false) = List.replicate (2 ^ n) 0 := by
                apply List.ext_getElem (by simp [bitPoly])
                intro i _ _
                simp [bitPoly, bitTorus_false]
              rw [this, cls_replicate_zero]
            · simp
          rw [this]
          exact d3
    all_goals (cases e : x.2 <;> rw [e] at hu <;> simp at hu)
  | [x, y, z] =>
    cases op <;> simp only [valIns, List.map_cons, List.map_nil, execOp, reduceCtorEq] at hu
    case cmux =>
      cases h1 : pick (valIns [x, y, z]) .sel with
      | none => simp only [valIns, List.map_cons, List.map_nil] at h1; rw [h1] at hu; simp at hu
      | some p =>
        cases h2 : pick (valIns [x, y, z]) .low with
        | none => simp only [valIns, List.map_cons, List.map_nil] at h2; rw [h2] at hu; simp at hu
        | some q =>
          cases h3 : pick (valIns [x, y, z]) .high with
          | none => simp only [valIns, List.map_cons, List.map_nil] at h3; rw [h3] at hu; simp at hu
          | some r =>
            obtain ⟨cp, Bp, p1, p2, p3⟩ := pick_held (R := Held P n (bitKey W s) sk) hx h1
            obtain ⟨cq, Bq, q1, q2, q3⟩ := pick_held (R := Held P n (bitKey W s) sk) hx h2
            obtain ⟨cr, Br, r1, r2, r3⟩ := pick_held (R := Held P n (bitKey W s) sk) hx h3
            simp only [valIns, List.map_cons, List.map_nil] at h1 h2 h3
            rw [h1, h2, h3] at hu
            simp only [noiseIns, List.map_cons, List.map_nil] at p2 q2 r2 hB
            simp only [noiseOp, p2, q2, r2, Option.some.injEq] at hB
            simp only [ctIns, List.map_cons, List.map_nil] at p1 q1 r1 ⊢
            simp only [execCt, p1, q1, r1]
            cases p <;> cases q <;> cases r <;> simp only [reduceCtorEq, Option.some.injEq] at hu
            cases cp <;> simp only [Held] at p3
            cases cq <;> simp only [Held] at q3
            cases cr <;> simp only [Held] at r3
            subst hB hu
            rename_i bb fl fh cs cl ch
            obtain ⟨d, d1, d2, d3⟩ := cmux_ok h ((he .cmux [(x.1.1, x.2), (y.1.1, y.2), (z.1.1, z.2)]).out 0) p3 q3.1 r3.1 q3.2 r3.2
            refine ⟨.glwe1 d, by simp only [h.params.degree, d1]; rfl, d2, ?_⟩
            cases bb <;> exact d3
    case glevCmux =>
      cases h1 : pick (valIns [x, y, z]) .sel with
      | none => simp only [valIns, List.map_cons, List.map_nil] at h1; rw [h1] at hu; simp at hu
      | some p =>
        cases h2 : pick (valIns [x, y, z]) .low with
        | none => simp only [valIns, List.map_cons, List.map_nil] at h2; rw [h2] at hu; simp at hu
        | some q =>
          cases h3 : pick (valIns [x, y, z]) .high with
          | none => simp only [valIns, List.map_cons, List.map_nil] at h3; rw [h3] at hu; simp at hu
          | some r =>
            obtain ⟨cp, Bp, p1, p2, p3⟩ := pick_held (R := Held P n (bitKey W s) sk) hx h1
            obtain ⟨cq, Bq, q1, q2, q3⟩ := pick_held (R := Held P n (bitKey W s) sk) hx h2
            obtain ⟨cr, Br, r1, r2, r3⟩ := pick_held (R := Held P n (bitKey W s) sk) hx h3
            simp only [valIns, List.map_cons, List.map_nil] at h1 h2 h3
            rw [h1, h2, h3] at hu
            simp only [noiseIns, List.map_cons, List.map_nil] at p2 q2 r2 hB
            simp only [noiseOp, p2, q2, r2, Option.some.injEq] at hB
            simp only [ctIns, List.map_cons, List.map_nil] at p1 q1 r1 ⊢
            simp only [execCt, p1, q1, r1]
            cases p <;> cases q <;> cases r <;> simp only [reduceCtorEq, Option.some.injEq] at hu
            cases cp <;> simp only [Held] at p3
            cases cq <;> simp only [Held] at q3
            cases cr <;> simp only [Held] at r3
            subst hB hu
            obtain ⟨d, d1, d2⟩ := glevCmux_held h (fun i => (he .glevCmux [(x.1.1, x.2), (y.1.1, y.2), (z.1.1, z.2)]).out i) p3 q3 r3
            exact ⟨.glev1 d, by simp only [h.params.degree, d1]; rfl, d2⟩
    all_goals (cases e : x.2 <;> rw [e] at hu <;> simp at hu)
  | x :: y :: z :: w :: xs =>
    simp only [valIns, List.map_cons] at hu
    cases op <;> simp only [execOp, reduceCtorEq] at hu
    all_goals (cases e : x.2 <;> rw [e] at hu <;> simp at hu)

end Spf.CtExec
