import Verif.Model.Isa
import Mathlib.Tactic.Linarith
import Mathlib.Tactic.Ring
/-! C27, C28: instruction encoding. -/
namespace Spf.Props
open Spf.Cpu

/-- Specification: the legal values of an operand field: a register number below 64, a 32-bit unsigned or signed immediate, a
width from 1 to 128. -/
def LegalOperand : Field → Int → Prop
  | .reg, v => 0 ≤ v ∧ v < 64
  | .u32, v => 0 ≤ v ∧ v < 2 ^ 32
  | .i32, v | .offset, v => -2 ^ 31 ≤ v ∧ v < 2 ^ 31
  | .width, v => 1 ≤ v ∧ v ≤ 128
  | .unused _, _ => False

/-- Specification: an instruction with the right number of operands, each legal. -/
def LegalArgs : List Field → List Int → Prop
  | [], as => as = []
  | .unused _ :: fs, as => LegalArgs fs as
  | f :: fs, as => ∃ a rest, as = a :: rest ∧ LegalOperand f a ∧ LegalArgs fs rest

def Legal (i : Inst) : Prop := LegalArgs i.op.format i.args

theorem mask32 (x : Nat) : x &&& (0x1 <<< 32 - 1) = x % 2 ^ 32 := Nat.and_two_pow_sub_one_eq_mod x 32
theorem mask7 (x : Nat) : x &&& (0x1 <<< 7 - 1) = x % 128 := Nat.and_two_pow_sub_one_eq_mod x 7
theorem mask6 (x : Nat) : x &&& (0x1 <<< 6 - 1) = x % 64 := Nat.and_two_pow_sub_one_eq_mod x 6
theorem mask8 (x : Nat) : x &&& 0xFF = x % 256 := Nat.and_two_pow_sub_one_eq_mod x 8

theorem asI32_asU64 {v : Int} (h : -2 ^ 31 ≤ v ∧ v < 2 ^ 31) : asI32 (asU64 v % 2 ^ 32) = v := by
  have e : asU64 v = if 0 ≤ v then v.toNat else (v + 2 ^ 64).toNat := by
    rw [asU64]; split <;> congr 1 <;> omega
  rw [e]
  simp only [asI32]
  split <;> split <;> omega

theorem asI32_range (x : Nat) : -2 ^ 31 ≤ asI32 x ∧ asI32 x < 2 ^ 31 := by simp only [asI32]; split <;> omega

theorem asU64_asI32 (x : Nat) : asU64 (asI32 x) % 2 ^ 32 = x % 2 ^ 32 := by
  simp only [asI32, asU64]; split <;> omega

theorem offset_rt {x : Nat} : asI32 (offsetDec (asU64 (asI32 x))) = asI32 x := by
  have h1 : asI32 (asU64 (asI32 x) % 2 ^ 32) = asI32 x := asI32_asU64 (asI32_range x)
  rw [offsetDec, h1]
  have : asI32 (asU64 (asI32 x)) = asI32 (asU64 (asI32 x) % 2 ^ 32) := by simp [asI32]
  rw [this, h1]

/-- one field: encoding fits its bits, and decoding any word with these low bits returns the operand -/
theorem field_enc (f : Field) (a : Int) (h : LegalOperand f a) :
    ∃ b, f.enc a = .ok b ∧ b < 2 ^ f.bits ∧ ∀ v, f.dec (b + 2 ^ f.bits * v) = .ok (some a) := by
  cases f with
  | reg =>
    obtain ⟨h1, h2⟩ := h
    refine ⟨_, rfl, by simp only [Field.bits]; omega, fun v => ?_⟩
    simp only [Field.dec, Field.bits, mask6]; congr 2; omega
  | u32 =>
    obtain ⟨h1, h2⟩ := h
    refine ⟨_, rfl, by simp only [Field.bits, mask32]; omega, fun v => ?_⟩
    simp only [Field.dec, Field.bits, mask32, asU64]; congr 2; omega
  | i32 =>
    refine ⟨_, rfl, by simp only [Field.bits, mask32]; omega, fun v => ?_⟩
    simp only [Field.dec, Field.bits, mask32]; congr 2
    rw [show (asU64 a % 2 ^ 32 + 2 ^ 32 * v) % 2 ^ 32 = asU64 a % 2 ^ 32 by omega]
    exact asI32_asU64 h
  | width =>
    obtain ⟨h1, h2⟩ := h
    have e : asU64 a = a.toNat := by simp only [asU64]; omega
    simp only [Field.enc, e, widthEnc]
    rw [if_pos (by omega)]
    refine ⟨_, rfl, by simp only [Field.bits, mask7]; omega, fun v => ?_⟩
    simp only [Field.dec, Field.bits, mask7]
    have e2 : ∀ y : Nat, (y % 128 + 2 ^ 7 * v) % 128 = y % 128 := by intro y; omega
    rw [e2, widthDec, if_pos (by omega)]
    simp only
    congr 2
    by_cases h128 : a.toNat = 128
    · simp [h128]; omega
    · rw [if_neg h128, Nat.mod_eq_of_lt (by omega), if_neg (by omega)]; omega
  | offset =>
    refine ⟨_, rfl, by simp only [Field.bits, mask32]; omega, fun v => ?_⟩
    simp only [Field.dec, Field.bits, mask32, offsetEnc]; congr 2
    rw [show (asU64 a % 2 ^ 32 + 2 ^ 32 * v) % 2 ^ 32 = asU64 a % 2 ^ 32 by omega, offset_rt]
    exact asI32_asU64 h
  | unused n => exact absurd h (by simp [LegalOperand])

/-- one field: what a decoded operand encodes to -/
theorem field_dec (f : Field) (v : Nat) (hf : ∀ n, f ≠ .unused n) :
    ∃ a, f.dec v = .ok (some a) ∧ LegalOperand f a ∧ f.enc a = .ok (v % 2 ^ f.bits) := by
  cases f with
  | reg => refine ⟨_, rfl, ?_, ?_⟩ <;> simp only [mask6, LegalOperand, Field.enc, Field.bits] <;> [omega; (congr 1)]
  | u32 =>
    refine ⟨_, rfl, ?_, ?_⟩ <;> simp only [mask32, LegalOperand, Field.enc, Field.bits, asU64] <;> [omega; (congr 1; omega)]
  | i32 =>
    refine ⟨_, rfl, ?_, ?_⟩
    · exact asI32_range _
    · simp only [Field.enc, mask32, Field.bits]; congr 1; rw [asU64_asI32]; omega
  | width =>
    simp only [Field.dec, mask7, widthDec]
    rw [if_pos (by omega)]
    refine ⟨_, rfl, ?_, ?_⟩
    · simp only [LegalOperand]; split <;> omega
    · simp only [Field.enc, widthEnc, mask7, Field.bits]
      have e : ∀ y : Nat, y ≤ 128 → asU64 (y : Int) = y := by intro y hy; simp only [asU64]; omega
      rw [e _ (by split <;> omega)]
      rw [if_pos (by split <;> omega)]
      simp only
      congr 1
      by_cases h0 : v % 128 = 0
      · simp [h0]
      · rw [if_neg h0, if_neg (by omega)]; omega
  | offset =>
    refine ⟨_, rfl, ?_, ?_⟩
    · exact asI32_range _
    · simp only [Field.enc, mask32, Field.bits, offsetEnc]; congr 1
      rw [offset_rt, asU64_asI32]; omega
  | unused n => exact absurd rfl (hf n)

theorem or_shift {acc b sh : Nat} (h : acc < 2 ^ sh) : acc ||| (b <<< sh) = acc + b * 2 ^ sh := by
  rw [Nat.or_comm, ← Nat.shiftLeft_add_eq_or_of_lt h, Nat.shiftLeft_eq]; omega

/-- number of bits of a format -/
def formatBits (fs : List Field) : Nat := (fs.map Field.bits).sum

theorem enc_dec_go : ∀ (fs : List Field) (as : List Int) (sh acc : Nat), LegalArgs fs as → acc < 2 ^ sh →
    ∃ w, encGo fs as sh acc = .ok (acc + w * 2 ^ sh) ∧ w < 2 ^ formatBits fs ∧ decGo fs w = .ok as := by
  intro fs
  induction fs with
  | nil =>
    intro as sh acc h hacc
    cases (show as = [] from h)
    exact ⟨0, by simp [encGo], by simp [formatBits], rfl⟩
  | cons f fs ih =>
    intro as sh acc h hacc
    by_cases hf : ∃ n, f = .unused n
    · obtain ⟨n, rfl⟩ := hf
      obtain ⟨w, h1, h2, h3⟩ := ih as (sh + n) acc h (Nat.lt_of_lt_of_le hacc (Nat.pow_le_pow_right (by omega) (by omega)))
      refine ⟨w * 2 ^ n, ?_, ?_, ?_⟩
      · rw [encGo, h1, Nat.pow_add]; congr 1; ring
      · simp only [formatBits, List.map_cons, List.sum_cons, Field.bits, Nat.pow_add]
        rw [Nat.mul_comm]; exact Nat.mul_lt_mul_of_pos_left h2 (Nat.two_pow_pos n)
      · rw [decGo]
        simp only [Field.dec, Field.bits]
        rw [Nat.shiftRight_eq_div_pow, Nat.mul_div_cancel _ (Nat.two_pow_pos n), h3]
    · have hf' : ∀ n, f ≠ .unused n := fun n e => hf ⟨n, e⟩
      have hx : ∃ a rest, as = a :: rest ∧ LegalOperand f a ∧ LegalArgs fs rest := by
        cases f with
        | unused n => exact absurd rfl (hf' n)
        | _ => exact h
      obtain ⟨a, rest, rfl, ha, hrest⟩ := hx
      obtain ⟨b, e1, e2, e3⟩ := field_enc f a ha
      have hacc' : acc + b * 2 ^ sh < 2 ^ (sh + f.bits) := by
        rw [Nat.pow_add]
        have : b * 2 ^ sh + 2 ^ sh ≤ 2 ^ sh * 2 ^ f.bits := by
          rw [← Nat.succ_mul, Nat.mul_comm]; exact Nat.mul_le_mul_left _ e2
        omega
      obtain ⟨w, h1, h2, h3⟩ := ih rest (sh + f.bits) _ hrest hacc'
      refine ⟨b + 2 ^ f.bits * w, ?_, ?_, ?_⟩
      · have : encGo (f :: fs) (a :: rest) sh acc = encGo fs rest (sh + f.bits) (acc ||| (b <<< sh)) := by
          cases f with
          | unused n => exact absurd rfl (hf' n)
          | _ => rw [encGo] <;> first | rw [e1] | (intro _ h; cases h)
        rw [this, or_shift hacc, h1, Nat.pow_add]; congr 1; ring
      · simp only [formatBits, List.map_cons, List.sum_cons, Nat.pow_add] at h2 ⊢
        have : 2 ^ f.bits * w + 2 ^ f.bits ≤ 2 ^ f.bits * 2 ^ (fs.map Field.bits).sum := by
          rw [← Nat.mul_succ]; exact Nat.mul_le_mul_left _ h2
        omega
      · rw [decGo, e3 w]
        dsimp only
        rw [Nat.shiftRight_eq_div_pow, Nat.add_mul_div_left _ _ (Nat.two_pow_pos _), Nat.div_eq_of_lt e2, Nat.zero_add, h3]

theorem code_lt (o : Op) : o.code < 256 := by cases o <;> decide
theorem ofCode_code (o : Op) : Op.ofCode o.code = some o := by cases o <;> decide
theorem code_ofCode {c : Nat} {o : Op} (h : Op.ofCode c = some o) : o.code = c := by
  have := List.find?_some h; simpa using this
theorem format_bits (o : Op) : formatBits o.format ≤ 51 := by cases o <;> decide

/-- **C27.** Every legal instruction has a 64-bit encoding, and decoding it yields that instruction. -/
theorem C27_roundtrip (i : Inst) (h : Legal i) : ∃ w, i.encode = .ok w ∧ w < 2 ^ 64 ∧ decode w = .ok i := by
  obtain ⟨w, h1, h2, h3⟩ := enc_dec_go i.op.format i.args 8 i.op.code h (code_lt i.op)
  have hc := code_lt i.op
  refine ⟨_, h1, ?_, ?_⟩
  · have : w < 2 ^ 51 := Nat.lt_of_lt_of_le h2 (Nat.pow_le_pow_right (by omega) (format_bits i.op))
    omega
  · rw [decode, mask8, show (i.op.code + w * 2 ^ 8) % 256 = i.op.code by omega, ofCode_code]
    dsimp only
    rw [Nat.shiftRight_eq_div_pow, show (i.op.code + w * 2 ^ 8) / 2 ^ 8 = w by omega, h3]

/-- **C27 (injective).** Legal instructions with the same encoding are equal. -/
theorem C27_injective (i j : Inst) (hi : Legal i) (hj : Legal j) (h : i.encode = j.encode) : i = j := by
  obtain ⟨w, h1, _, h2⟩ := C27_roundtrip i hi
  obtain ⟨w', h3, _, h4⟩ := C27_roundtrip j hj
  rw [h1, h3] at h; cases h
  rw [h2] at h4; cases h4; rfl

/-- **C27 (illegal widths).** A width outside 1..128 is refused (a panic) when encoding. -/
theorem C27_width_refused (x : Nat) (h : x = 0 ∨ 128 < x) (hx : x < 2 ^ 32) (d s : Int) :
    (⟨.trunc, [d, s, x]⟩ : Inst).encode = .error .panic := by
  have e : asU64 (x : Int) = x := by simp only [asU64]; omega
  simp only [Inst.encode, Op.format, encGo, Field.enc, e, widthEnc]
  rw [if_neg (by omega)]

/-- the word with the bits of unused fields cleared -/
def clearUnused : List Field → Nat → Nat
  | [], _ => 0
  | .unused n :: fs, v => 2 ^ n * clearUnused fs (v / 2 ^ n)
  | f :: fs, v => v % 2 ^ f.bits + 2 ^ f.bits * clearUnused fs (v / 2 ^ f.bits)

theorem dec_enc_go : ∀ (fs : List Field) (v : Nat) (as : List Int), decGo fs v = .ok as →
    v < 2 ^ formatBits fs ∧ LegalArgs fs as ∧ ∀ sh acc, acc < 2 ^ sh → encGo fs as sh acc = .ok (acc + clearUnused fs v * 2 ^ sh) := by
  intro fs
  induction fs with
  | nil =>
    intro v as h
    rw [decGo] at h
    split at h
    · cases h; rename_i h0; exact ⟨by simp [formatBits, h0], rfl, fun sh acc _ => by simp [encGo, clearUnused]⟩
    · cases h
  | cons f fs ih =>
    intro v as h
    by_cases hf : ∃ n, f = .unused n
    · obtain ⟨n, rfl⟩ := hf
      rw [decGo] at h
      simp only [Field.dec, Field.bits, Nat.shiftRight_eq_div_pow] at h
      cases hd : decGo fs (v / 2 ^ n) with
      | error e => rw [hd] at h; cases h
      | ok as' =>
        rw [hd] at h; cases h
        obtain ⟨i1, i2, i3⟩ := ih _ _ hd
        refine ⟨?_, i2, ?_⟩
        · simp only [formatBits, List.map_cons, List.sum_cons, Field.bits, Nat.pow_add]
          rw [Nat.mul_comm]; exact (Nat.div_lt_iff_lt_mul (Nat.two_pow_pos n)).mp i1
        · intro sh acc hacc
          rw [encGo, i3 _ _ (Nat.lt_of_lt_of_le hacc (Nat.pow_le_pow_right (by omega) (by omega))), clearUnused, Nat.pow_add]
          congr 1; ring
    · have hf' : ∀ n, f ≠ .unused n := fun n e => hf ⟨n, e⟩
      obtain ⟨a, d1, d2, d3⟩ := field_dec f v hf'
      rw [decGo, d1] at h
      simp only [Nat.shiftRight_eq_div_pow] at h
      cases hd : decGo fs (v / 2 ^ f.bits) with
      | error e => rw [hd] at h; cases h
      | ok as' =>
        rw [hd] at h; cases h
        obtain ⟨i1, i2, i3⟩ := ih _ _ hd
        refine ⟨?_, ?_, ?_⟩
        · simp only [formatBits, List.map_cons, List.sum_cons, Nat.pow_add]
          rw [Nat.mul_comm]; exact (Nat.div_lt_iff_lt_mul (Nat.two_pow_pos _)).mp i1
        · cases f with
          | unused n => exact absurd rfl (hf' n)
          | _ => exact ⟨a, as', rfl, d2, i2⟩
        · intro sh acc hacc
          have hb : v % 2 ^ f.bits < 2 ^ f.bits := Nat.mod_lt _ (Nat.two_pow_pos _)
          have : encGo (f :: fs) (a :: as') sh acc = encGo fs as' (sh + f.bits) (acc ||| ((v % 2 ^ f.bits) <<< sh)) := by
            cases f with
            | unused n => exact absurd rfl (hf' n)
            | _ => rw [encGo] <;> first | rw [d3] | (intro _ h; cases h)
          have hacc' : acc + (v % 2 ^ f.bits) * 2 ^ sh < 2 ^ (sh + f.bits) := by
            rw [Nat.pow_add]
            have : (v % 2 ^ f.bits) * 2 ^ sh + 2 ^ sh ≤ 2 ^ sh * 2 ^ f.bits := by
              rw [← Nat.succ_mul, Nat.mul_comm]; exact Nat.mul_le_mul_left _ hb
            omega
          have hcl : clearUnused (f :: fs) v = v % 2 ^ f.bits + 2 ^ f.bits * clearUnused fs (v / 2 ^ f.bits) := by
            cases f with
            | unused n => exact absurd rfl (hf' n)
            | _ => rfl
          rw [this, or_shift hacc, i3 _ _ hacc', hcl, Nat.pow_add]; congr 1; ring

theorem clearUnused_eq : ∀ (fs : List Field) (v : Nat), (∀ n, .unused n ∉ fs) → v < 2 ^ formatBits fs → clearUnused fs v = v := by
  intro fs
  induction fs with
  | nil => intro v _ h; simp [formatBits] at h; simp [clearUnused, h]
  | cons f fs ih =>
    intro v hu h
    have hf' : ∀ n, f ≠ .unused n := fun n e => hu n (by simp [e])
    have hcl : clearUnused (f :: fs) v = v % 2 ^ f.bits + 2 ^ f.bits * clearUnused fs (v / 2 ^ f.bits) := by
      cases f with
      | unused n => exact absurd rfl (hf' n)
      | _ => rfl
    rw [hcl, ih _ (fun n e => hu n (by simp [e])), Nat.mod_add_div]
    rw [Nat.div_lt_iff_lt_mul (Nat.two_pow_pos _), Nat.mul_comm, ← Nat.pow_add]
    simpa [formatBits] using h

/-- **C28.** If decoding a 64-bit word succeeds, the instruction is legal and has an encoding; this encoding is the word
itself, for every operation except the four with unused bits (`Trunc`, `Zext`, `Sext`, `Ret`). -/
theorem C28_decode_partial (w : Nat) (i : Inst) (h : decode w = .ok i) :
    Legal i ∧ ∃ w', i.encode = .ok w' ∧ (i.op ∉ [Op.trunc, .zext, .sext, .ret] → w' = w) := by
  rw [decode] at h
  cases ho : Op.ofCode (w &&& 0xFF) with
  | none => rw [ho] at h; cases h
  | some op =>
    rw [ho] at h; dsimp only at h
    cases hd : decGo op.format (w >>> 8) with
    | error e => rw [hd] at h; cases h
    | ok as =>
      rw [hd] at h; cases h
      obtain ⟨h1, h2, h3⟩ := dec_enc_go _ _ _ hd
      have hcode := code_ofCode ho
      rw [mask8] at hcode
      refine ⟨h2, _, h3 8 op.code (code_lt op), ?_⟩
      intro hu
      rw [clearUnused_eq _ _ ?_ h1, Nat.shiftRight_eq_div_pow, hcode]
      · have := Nat.div_add_mod w (2 ^ 8); omega
      · intro n hn
        dsimp only at hu
        cases op <;> simp_all [Op.format]

/-- **C28 (totality).** Decoding a word yields an instruction, or fails with the illegal-instruction error exactly when the low
byte is no opcode of the table, or else fails by the assertion that no bits remain above the operands. -/
theorem C28_total (w : Nat) :
    ((∀ op : Op, op.code ≠ w % 256) ∧ decode w = .error .badOpcode) ∨
    ∃ op : Op, op.code = w % 256 ∧
      ((w / 256 < 2 ^ formatBits op.format ∧ ∃ i, i.op = op ∧ decode w = .ok i) ∨
       (2 ^ formatBits op.format ≤ w / 256 ∧ decode w = .error .panic)) := by
  have hgo : ∀ (fs : List Field) (v : Nat), (v < 2 ^ formatBits fs → ∃ as, decGo fs v = .ok as) ∧
      (2 ^ formatBits fs ≤ v → decGo fs v = .error .panic) := by
    intro fs
    induction fs with
    | nil =>
      intro v
      refine ⟨fun h => ⟨[], ?_⟩, fun h => ?_⟩
      · have : v = 0 := by simp [formatBits] at h; exact h
        simp [decGo, this]
      · rw [decGo, if_neg (by simp [formatBits] at h; omega)]
    | cons f fs ih =>
      intro v
      obtain ⟨x, hx⟩ : ∃ x, f.dec v = .ok x := by
        by_cases hf : ∃ n, f = .unused n
        · obtain ⟨n, rfl⟩ := hf; exact ⟨none, rfl⟩
        · obtain ⟨a, d, _⟩ := field_dec f v (fun n e => hf ⟨n, e⟩); exact ⟨_, d⟩
      have hiff : v < 2 ^ formatBits (f :: fs) ↔ v / 2 ^ f.bits < 2 ^ formatBits fs := by
        rw [Nat.div_lt_iff_lt_mul (Nat.two_pow_pos _)]
        simp only [formatBits, List.map_cons, List.sum_cons, Nat.pow_add, Nat.mul_comm]
      constructor
      · intro h
        obtain ⟨as, ha⟩ := (ih (v / 2 ^ f.bits)).1 (hiff.mp h)
        rw [decGo, hx]; dsimp only; rw [Nat.shiftRight_eq_div_pow, ha]; exact ⟨_, rfl⟩
      · intro h
        have := (ih (v / 2 ^ f.bits)).2 (by by_contra hc; exact absurd (hiff.mpr (by omega)) (by omega))
        rw [decGo, hx]; dsimp only; rw [Nat.shiftRight_eq_div_pow, this]
  rw [decode, mask8]
  cases ho : Op.ofCode (w % 256) with
  | none =>
    left
    refine ⟨fun op e => ?_, rfl⟩
    rw [← e, ofCode_code] at ho; cases ho
  | some op =>
    right
    refine ⟨op, code_ofCode ho, ?_⟩
    dsimp only
    rw [Nat.shiftRight_eq_div_pow]
    by_cases h : w / 2 ^ 8 < 2 ^ formatBits op.format
    · left
      obtain ⟨as, ha⟩ := (hgo op.format (w / 2 ^ 8)).1 h
      rw [ha]
      exact ⟨h, _, rfl, rfl⟩
    · right
      have h' : 2 ^ formatBits op.format ≤ w / 2 ^ 8 := by omega
      rw [(hgo op.format (w / 2 ^ 8)).2 h']
      exact ⟨h', rfl⟩

/-- **C28 is violated** for the operations with unused bits: decoding ignores them. For every value of the 44 unused bits a
`Ret` word decodes to `Ret`, whose encoding is `0xBA`. -/
theorem C28_unused_violated (u : Nat) (h : u < 2 ^ 44) : decode (0xBA + u * 256) = .ok ⟨.ret, []⟩ ∧ (⟨.ret, []⟩ : Inst).encode = .ok 0xBA := by
  refine ⟨?_, rfl⟩
  rw [decode, mask8, show (0xBA + u * 256) % 256 = 0xBA by omega, show Op.ofCode 0xBA = some .ret by decide]
  dsimp only [Op.format]
  simp only [decGo, Field.dec, Field.bits, Nat.shiftRight_eq_div_pow]
  rw [if_pos (by omega)]

example : Legal ⟨.store, [3, 63, 128, -4]⟩ ∧ (⟨.store, [3, 63, 128, -4]⟩ : Inst).encode = .ok 0x7FFFFFFE00FC301 := by
  refine ⟨⟨3, _, rfl, by simp [LegalOperand], 63, _, rfl, by simp [LegalOperand], 128, _, rfl, by simp [LegalOperand], -4, _, rfl, by simp [LegalOperand], rfl⟩, by decide⟩
example : decode 0x7FFFFFFE00FC301 = .ok ⟨.store, [3, 63, 128, -4]⟩ := by decide
example : decode 0x02 = .error .badOpcode ∧ decode (0x21 + 2 ^ 40) = .error .panic := by decide

end Spf.Props
