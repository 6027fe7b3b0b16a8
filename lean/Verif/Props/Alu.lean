import Verif.Proof.Alu
/-! C35 (plaintext arithmetic), C36 (plaintext and encrypted arithmetic agree), C37 (casts). -/
namespace Spf.Props
open Spf.Spec Spf.Cpu

/-! ### C35: two-operand instructions on plaintexts -/

/-- **C35 (two-operand arithmetic, bitwise and comparison instructions).** For every width from 1 to 127 and every pair
of `w`-bit operands the instruction succeeds with the `w`-bit result (one bit for comparisons). Missing: width 128, where
the claim is false (`C35_width128_violated`), except for the instructions of `C35_width128`. -/
theorem C35_binary_partial (op : Bin) {w x y : Nat} (hw : 1 ≤ w) (hw2 : w < 128) (hx : x < 2 ^ w) (hy : y < 2 ^ w) :
    execBin op (.plain x w) (.plain y w) = .ok (.plain (binMeaning w x y op) (binWidth w op)) := by
  have hc : checkWidth (.plain x w) (.plain y w) = .ok () := checkWidth_ok rfl hw (by simp only [Reg.width]; omega)
  cases op with
  | add =>
    simp only [execBin, Cpu.add, hc, bind_ok, mask_ok hw2, and_mask, wadd, mod_two128 (Nat.le_of_lt hw2)]; rfl
  | sub =>
    simp only [execBin, Cpu.sub, hc, bind_ok, mask_ok hw2, and_mask, wsub_mod (Nat.le_of_lt hw2) hy]; rfl
  | mul =>
    simp only [execBin, Cpu.mul, hc, bind_ok]
    rw [if_pos (show (Reg.plain x w).width < 128 from hw2)]
    simp only [Reg.width, mask_ok hw2, bind_ok, and_mask, wmul, mod_two128 (Nat.le_of_lt hw2)]; rfl
  | and =>
    simp only [execBin, Cpu.and, hc, bind_ok, mask_ok hw2, and_mask]
    rw [Nat.mod_eq_of_lt (Nat.and_lt_two_pow x hy)]; rfl
  | or =>
    simp only [execBin, Cpu.or, hc, bind_ok, mask_ok hw2, and_mask]
    rw [Nat.mod_eq_of_lt (Nat.or_lt_two_pow hx hy)]; rfl
  | xor =>
    simp only [execBin, Cpu.xor, hc, bind_ok, mask_ok hw2, and_mask]
    rw [Nat.mod_eq_of_lt hy]; rfl
  | cmp c =>
    obtain ⟨b, h1, h2⟩ := plain_cmp hw hw2 hx hy c
    simp only [execBin, Cpu.cmp, hc, bind_ok, h1, binMeaning, binWidth, ← h2]
    cases b <;> simp <;> rfl

/-- every result fits its width -/
theorem C35_binary_fits (op : Bin) {w x y : Nat} (hx : x < 2 ^ w) (hy : y < 2 ^ w) :
    binMeaning w x y op < 2 ^ binWidth w op := by
  have := Nat.two_pow_pos w
  cases op <;> simp only [binMeaning, binWidth]
  case add => exact Nat.mod_lt _ this
  case sub => exact Nat.mod_lt _ this
  case mul => exact Nat.mod_lt _ this
  case and => exact Nat.and_lt_two_pow x hy
  case or => exact Nat.or_lt_two_pow hx hy
  case xor => exact Nat.xor_lt_two_pow hx hy
  case cmp c => split <;> omega

-- 7-bit: 100 + 50 = 22 mod 128; -28 < 50
example : execBin .add (.plain 100 7) (.plain 50 7) = .ok (.plain 22 7) := by
  rw [C35_binary_partial .add (by decide) (by decide) (by decide) (by decide)]; rfl
example : execBin (.cmp .lts) (.plain 100 7) (.plain 50 7) = .ok (.plain 1 1) := by rfl

/-- **C35 (width 128, the instructions that support it).** -/
theorem C35_width128 {x y : Nat} (hx : x < 2 ^ 128) (hy : y < 2 ^ 128) (op : Bin)
    (hop : op ∈ [Bin.mul, .cmp .eq, .cmp .gt, .cmp .ge, .cmp .lt, .cmp .le]) :
    execBin op (.plain x 128) (.plain y 128) = .ok (.plain (binMeaning 128 x y op) (binWidth 128 op)) := by
  have hc : checkWidth (.plain x 128) (.plain y 128) = .ok () := checkWidth_ok rfl (by simp [Reg.width]) (by simp [Reg.width])
  simp only [List.mem_cons, List.not_mem_nil, or_false] at hop
  rcases hop with rfl | rfl | rfl | rfl | rfl | rfl
  · simp only [execBin, Cpu.mul, hc, bind_ok]
    rw [if_neg (show ¬ (Reg.plain x 128).width < 128 by simp [Reg.width])]
    simp only [bind_ok, wmul]
    rw [show two128 - 1 = 2 ^ 128 - 1 from rfl, and_mask, mod_two128 (Nat.le_refl _)]; rfl
  all_goals
    have key : ∀ c : Cmp, c ∈ [Cmp.eq, .gt, .ge, .lt, .le] → execBin (.cmp c) (.plain x 128) (.plain y 128) =
        .ok (.plain (binMeaning 128 x y (.cmp c)) (binWidth 128 (.cmp c))) := by
      intro c hcc
      obtain ⟨b, h1, h2⟩ : ∃ b, c.plain x 128 y 128 = .ok b ∧ (b = true ↔ cmpHolds 128 x y c) := by
        simp only [List.mem_cons, List.not_mem_nil, or_false] at hcc
        rcases hcc with rfl | rfl | rfl | rfl | rfl <;> exact ⟨_, rfl, by simp [cmpHolds]⟩
      simp only [execBin, Cpu.cmp, hc, bind_ok, h1, binMeaning, binWidth, ← h2]
      cases b <;> simp <;> rfl
    exact key _ (by simp)

/-- **C35 violated (width 128).** Width 128 passes the width check, but the mask `(1 << 128) - 1` overflows: addition,
subtraction and the bitwise instructions panic on every pair of operands (the release profile computes the mask `0`
instead, so the result is always 0). -/
theorem C35_width128_violated (x y : Nat) (op : Bin) (hop : op ∈ [Bin.add, .sub, .and, .or, .xor]) :
    execBin op (.plain x 128) (.plain y 128) = .error .panic := by
  have hc : checkWidth (.plain x 128) (.plain y 128) = .ok () := checkWidth_ok rfl (by simp [Reg.width]) (by simp [Reg.width])
  simp only [List.mem_cons, List.not_mem_nil, or_false] at hop
  rcases hop with rfl | rfl | rfl | rfl | rfl <;>
    simp only [execBin, Cpu.add, Cpu.sub, Cpu.and, Cpu.or, Cpu.xor, hc, bind_ok, mask_128 (Nat.le_refl 128), bind_err]

/-- **C35 violated (width 128, signed comparisons).** Comparing a negative 128-bit number panics. -/
theorem C35_signed128_violated {x : Nat} (hx : x < 2 ^ 128) (hs : 2 ^ 127 ≤ x) (y : Nat) (c : Cmp)
    (hcmp : c ∈ [Cmp.gts, .ges, .lts, .les]) : execBin (.cmp c) (.plain x 128) (.plain y 128) = .error .panic := by
  have hc : checkWidth (.plain x 128) (.plain y 128) = .ok () := checkWidth_ok rfl (by simp [Reg.width]) (by simp [Reg.width])
  have ht : toSigned x 128 = .error .panic := by
    unfold toSigned
    rw [sub_ok (by decide), bind_ok, shl_ok (by decide), bind_ok]
    rw [show 1 * 2 ^ (128 - 1) % two128 = 2 ^ (128 - 1) by decide]
    rw [if_neg (fun h => by have := (sign_test (by decide) hx).1 h; omega)]
    rfl
  simp only [List.mem_cons, List.not_mem_nil, or_false] at hcmp
  rcases hcmp with rfl | rfl | rfl | rfl <;>
    simp only [execBin, Cpu.cmp, hc, bind_ok, Cmp.plain, ht, bind_err]

/-- Unequal or unsupported widths are refused, on plaintexts and ciphertexts alike. -/
theorem C35_width_refused (op : Bin) (a b : Reg) :
    (a.width ≠ b.width → execBin op a b = .error .widthMismatch) ∧
    (a.width = b.width → a.width < 1 ∨ a.width > 128 → execBin op a b = .error .unsupportedWidth) := by
  constructor
  · intro h
    have hc : checkWidth a b = .error .widthMismatch := by unfold checkWidth; rw [if_pos h]
    cases op <;> simp only [execBin, Cpu.add, Cpu.sub, Cpu.mul, Cpu.and, Cpu.or, Cpu.xor, Cpu.cmp, hc, bind_err]
  · intro h h'
    have hc : checkWidth a b = .error .unsupportedWidth := by unfold checkWidth; rw [if_neg (by omega), if_pos h']
    cases op <;> simp only [execBin, Cpu.add, Cpu.sub, Cpu.mul, Cpu.and, Cpu.or, Cpu.xor, Cpu.cmp, hc, bind_err]

/-! ### C35: one-operand and carry instructions on plaintexts -/

/-- **C35 (Not, Neg).** -/
theorem C35_not_neg_partial {w x : Nat} (hw2 : w < 128) (hx : x < 2 ^ w) :
    Cpu.not (.plain x w) = .ok (.plain (2 ^ w - 1 - x) w) ∧ neg (.plain x w) = .ok (.plain ((2 ^ w - x) % 2 ^ w) w) := by
  constructor
  · simp only [Cpu.not, mask_ok hw2, bind_ok, and_mask]
    have h1 := pow_split (Nat.le_of_lt hw2)
    have h3 := Nat.two_pow_pos (128 - w)
    have : not128 x = (2 ^ w - 1 - x) + 2 ^ w * (2 ^ (128 - w) - 1) := by
      unfold not128
      rw [Nat.mul_sub, Nat.mul_one, ← h1]
      have := pow_le_128 (Nat.le_of_lt hw2); omega
    rw [this, Nat.add_mul_mod_self_left, Nat.mod_eq_of_lt (by omega)]; rfl
  · simp only [Cpu.neg, mask_ok hw2, bind_ok, and_mask, wsub_mod (Nat.le_of_lt hw2) hx, Nat.zero_add]; rfl

/-- **C35 (add with carry).** Sum and carry out of a `w`-bit addition with carry in. -/
theorem C35_addc_partial {w x y c : Nat} (hw : 1 ≤ w) (hw2 : w < 128) (hx : x < 2 ^ w) (hy : y < 2 ^ w) (hc : c < 2) :
    addC (.plain x w) (.plain y w) (.plain c 1) = .ok (.plain ((x + y + c) % 2 ^ w) w, .plain ((x + y + c) / 2 ^ w) 1) := by
  have hk : checkWidth (.plain x w) (.plain y w) = .ok () := checkWidth_ok rfl hw (by simp only [Reg.width]; omega)
  have hlt : x + y + c < 2 * 2 ^ w := by omega
  have h128 : 2 * 2 ^ w ≤ two128 := by rw [← Nat.pow_succ']; exact pow_le_128 hw2
  simp only [addC, hk, bind_ok]
  rw [if_neg (by simp [Reg.width])]
  simp only [addWithCarry, mask_ok hw2, bind_ok, wadd, shr_ok hw2, and_mask]
  rw [Nat.mod_eq_of_lt (show x + y < two128 by omega), Nat.mod_eq_of_lt (show x + y + c < two128 by omega)]
  have hdiv : (x + y + c) / 2 ^ w < 2 := Nat.div_lt_of_lt_mul (by omega)
  rw [show (x + y + c) / 2 ^ w &&& 1 = (x + y + c) / 2 ^ w from by
    rw [Nat.and_one_is_mod]; exact Nat.mod_eq_of_lt hdiv]
  rfl

/-- **C35 (subtract with borrow).** -/
theorem C35_subb_partial {w x y c : Nat} (hw : 1 ≤ w) (hw2 : w < 128) (hx : x < 2 ^ w) (hy : y < 2 ^ w) (hc : c < 2) :
    subB (.plain x w) (.plain y w) (.plain c 1) =
      .ok (.plain ((x + 2 ^ w + 2 ^ w - y - c) % 2 ^ w) w, .plain (if x < y + c then 1 else 0) 1) := by
  have hk : checkWidth (.plain x w) (.plain y w) = .ok () := checkWidth_ok rfl hw (by simp only [Reg.width]; omega)
  have hpos := Nat.two_pow_pos w
  have h128 : 2 * 2 ^ w ≤ two128 := by rw [← Nat.pow_succ']; exact pow_le_128 hw2
  have hw1 : 2 ≤ 2 ^ w := by
    have := Nat.pow_le_pow_right (n := 2) (by omega) hw
    simpa using this
  simp only [subB, hk, bind_ok]
  rw [if_neg (by simp [Reg.width])]
  have hcn : (if c ≠ 0 then 1 else 0) = c := by split <;> omega
  simp only [borrowingSub, mask_ok hw2, bind_ok, hcn, and_mask]
  have e1 : wsub (wsub x y) c % 2 ^ w = (x + 2 ^ w + 2 ^ w - y - c) % 2 ^ w := by
    rw [wsub_mod (Nat.le_of_lt hw2) (by omega)]
    have h1 := wsub_mod (x := x) (Nat.le_of_lt hw2) hy
    generalize wsub x y = d at h1
    rw [show d + 2 ^ w - c = d + (2 ^ w - c) by omega, Nat.add_mod, h1, ← Nat.add_mod]
    congr 1; omega
  have e2 : (x < y ∨ wsub x y < c) ↔ x < y + c := by
    by_cases h : x < y
    · exact ⟨fun _ => by omega, fun _ => Or.inl h⟩
    · have : wsub x y = x - y := by
        unfold wsub
        rw [show x + two128 - y = (x - y) + two128 by omega, Nat.add_mod_right, Nat.mod_eq_of_lt (by omega)]
      rw [this]; omega
  rw [e1]
  by_cases h : x < y + c
  · rw [if_pos h, if_pos (e2.2 h)]; rfl
  · rw [if_neg h, if_neg (fun h' => h (e2.1 h'))]; rfl

example : subB (.plain 3 8) (.plain 3 8) (.plain 1 1) = .ok (.plain 255 8, .plain 1 1) :=
  C35_subb_partial (by decide) (by decide) (by decide) (by decide) (by decide)
example : addC (.plain 200 8) (.plain 100 8) (.plain 1 1) = .ok (.plain 45 8, .plain 1 1) :=
  C35_addc_partial (by decide) (by decide) (by decide) (by decide) (by decide)

/-! ### C35: shifts on plaintexts -/

/-- **C35 (logical right shift).** Correct for every distance below 128. -/
theorem C35_shr_partial {w x s ws : Nat} (hs : s < 128) :
    shiftOp .shr (.plain x w) (.plain s ws) = .ok (.plain (shMeaning w x s .shr) w) := by
  simp only [shiftOp, Sh.plain, shr_ok hs, bind_ok, shMeaning]; rfl

/-- **C35 (left shift).** The result is not reduced to the register's width: it is `x * 2^s` modulo `2^128`. So it is the
correct `w`-bit result exactly when no bit is shifted out. -/
theorem C35_shl_partial {w x s ws : Nat} (hw : w ≤ 128) (hs : s < 128) :
    shiftOp .shl (.plain x w) (.plain s ws) = .ok (.plain (shMeaning w x s .shl) w) ↔ x * 2 ^ s % two128 < 2 ^ w := by
  simp only [shiftOp, Sh.plain, shl_ok hs, bind_ok, shMeaning]
  show Except.ok (Reg.plain _ _) = Except.ok _ ↔ _
  rw [Except.ok.injEq, Reg.plain.injEq]
  constructor
  · rintro ⟨h, _⟩; rw [h]; exact Nat.mod_lt _ (Nat.two_pow_pos w)
  · intro h
    refine ⟨?_, rfl⟩
    rw [← mod_two128 hw, Nat.mod_eq_of_lt h]

/-- **C35 violated (left shift).** Shifting out any bit gives a register whose value exceeds its width. -/
theorem C35_shl_violated {w x s ws : Nat} (h : 2 ^ w ≤ x * 2 ^ s) (h2 : x * 2 ^ s < two128) (hs : s < 128) :
    ∃ v, shiftOp .shl (.plain x w) (.plain s ws) = .ok (.plain v w) ∧ 2 ^ w ≤ v ∧ v ≠ shMeaning w x s .shl := by
  refine ⟨x * 2 ^ s % two128, by simp only [shiftOp, Sh.plain, shl_ok hs, bind_ok]; rfl, by rw [Nat.mod_eq_of_lt h2]; exact h, ?_⟩
  rw [Nat.mod_eq_of_lt h2]
  simp only [shMeaning]
  have := Nat.mod_lt (x * 2 ^ s) (Nat.two_pow_pos w); omega

-- 8-bit 200 << 1 = 400, not 144; and it compares unequal to 144
example : shiftOp .shl (.plain 200 8) (.plain 1 8) = .ok (.plain 400 8) ∧ shMeaning 8 200 1 .shl = 144 ∧
    execBin (.cmp .eq) (.plain 400 8) (.plain 144 8) = .ok (.plain 0 1) := ⟨rfl, rfl, rfl⟩

theorem twos_neg_div {w x s : Nat} (hw : 1 ≤ w) (hx : x < 2 ^ w) (hn : 2 ^ (w - 1) ≤ x) (hs : s ≤ w) :
    (twos w x / 2 ^ s % 2 ^ w).toNat = 2 ^ w - 2 ^ (w - s) + x / 2 ^ s := by
  unfold twos
  rw [if_neg (by omega)]
  have hp : (2 : Int) ^ w = 2 ^ (w - s) * 2 ^ s := by rw [← pow_add]; congr 1; omega
  have hpn : (2 : Nat) ^ w = 2 ^ (w - s) * 2 ^ s := by rw [← Nat.pow_add]; congr 1; omega
  have hpos : (0 : Int) < 2 ^ s := by positivity
  have hdn : x / 2 ^ s < 2 ^ (w - s) := Nat.div_lt_of_lt_mul (by rw [Nat.mul_comm, ← hpn]; exact hx)
  have hle : 2 ^ (w - s) ≤ 2 ^ w := Nat.pow_le_pow_right (by omega) (by omega)
  have hd : ((x : Int) - 2 ^ w) / 2 ^ s = ((x / 2 ^ s : Nat) : Int) - 2 ^ (w - s) := by
    rw [hp, Int.sub_mul_ediv_right _ _ (ne_of_gt hpos)]; push_cast; rfl
  rw [hd]
  have hm : (((x / 2 ^ s : Nat) : Int) - 2 ^ (w - s)) % 2 ^ w = ((2 ^ w - 2 ^ (w - s) + x / 2 ^ s : Nat) : Int) := by
    have e : ((2 ^ w - 2 ^ (w - s) + x / 2 ^ s : Nat) : Int) = (((x / 2 ^ s : Nat) : Int) - 2 ^ (w - s)) + 2 ^ w := by
      rw [Nat.cast_add, Nat.cast_sub hle]; push_cast; ring
    rw [e, ← Int.add_emod_right]
    apply Int.emod_eq_of_lt
    · rw [← e]; exact Int.natCast_nonneg _
    · have : ((x / 2 ^ s : Nat) : Int) < 2 ^ (w - s) := by exact_mod_cast hdn
      omega
  rw [hm]; rfl

/-- **C35 (arithmetic right shift of a non-negative number).** Correct for every distance below 128. -/
theorem C35_shra_nonneg_partial {w x s ws : Nat} (hw : 1 ≤ w) (hw2 : w ≤ 128) (hx : x < 2 ^ (w - 1)) (hs : s < 128) :
    shiftOp .shra (.plain x w) (.plain s ws) = .ok (.plain (shMeaning w x s .shra) w) := by
  have hxw : x < 2 ^ w := Nat.lt_of_lt_of_le hx (Nat.pow_le_pow_right (by omega) (by omega))
  have hlt : 2 ^ (w - 1) < two128 := Nat.pow_lt_pow_right (by omega) (by omega)
  have hm : shMeaning w x s .shra = x / 2 ^ s := by
    simp only [shMeaning, twos, if_pos hx]
    have h1 : ((x : Int) / 2 ^ s) = ((x / 2 ^ s : Nat) : Int) := by push_cast; rfl
    have hd := Nat.lt_of_le_of_lt (Nat.div_le_self x (2 ^ s)) hxw
    rw [h1, Int.emod_eq_of_lt (Int.natCast_nonneg _) (by exact_mod_cast hd)]; rfl
  rw [hm]
  simp only [shiftOp, Sh.plain, shraPlain, shr_ok hs, bind_ok, sub_ok hw, shl_ok (show w - 1 < 128 by omega), Nat.one_mul,
    Nat.mod_eq_of_lt hlt]
  rw [if_pos ((sign_test hw hxw).2 hx)]; rfl

/-- **C35 violated (arithmetic right shift of a negative number).** For every width below 128, every negative `w`-bit
number and every distance up to `w` (and below 127), the result has one sign bit too many: it is the correct value plus
`2^w`, which does not fit the register. -/
theorem C35_shra_violated {w x s ws : Nat} (hw : 1 ≤ w) (hw2 : w < 128) (hx : x < 2 ^ w) (hn : 2 ^ (w - 1) ≤ x) (hs : s ≤ w)
    (hs2 : s < 127) :
    shiftOp .shra (.plain x w) (.plain s ws) = .ok (.plain (shMeaning w x s .shra + 2 ^ w) w) := by
  have hlt : 2 ^ (w - 1) < two128 := Nat.pow_lt_pow_right (by omega) (by omega)
  have hpn : (2 : Nat) ^ w = 2 ^ (w - s) * 2 ^ s := by rw [← Nat.pow_add]; congr 1; omega
  have hdn : x / 2 ^ s < 2 ^ (w - s) := Nat.div_lt_of_lt_mul (by rw [Nat.mul_comm, ← hpn]; exact hx)
  have h2s : 2 ^ (s + 1) < two128 := Nat.pow_lt_pow_right (by omega) (by omega)
  have hle : 2 ^ (w - s) ≤ 2 ^ w := Nat.pow_le_pow_right (by omega) (by omega)
  have hprod : (2 ^ (s + 1) - 1) * 2 ^ (w - s) = 2 ^ w + 2 ^ w - 2 ^ (w - s) := by
    rw [Nat.sub_mul, Nat.one_mul, ← Nat.pow_add, show s + 1 + (w - s) = w + 1 by omega, Nat.pow_succ]; omega
  have hbig : 2 ^ w + 2 ^ w ≤ two128 := by
    have : 2 ^ (w + 1) ≤ two128 := pow_le_128 hw2
    rw [Nat.pow_succ] at this; omega
  have h1 := Nat.two_pow_pos (w - s)
  have hm : shMeaning w x s .shra = 2 ^ w - 2 ^ (w - s) + x / 2 ^ s := twos_neg_div hw hx hn hs
  by_cases h0 : s = 0 ∧ w = 128
  · omega
  · simp only [shiftOp, Sh.plain, shraPlain, shr_ok (show s < 128 by omega), bind_ok, sub_ok hw, shl_ok (show w - 1 < 128 by omega),
      Nat.one_mul, Nat.mod_eq_of_lt hlt]
    rw [if_neg (fun h => by have := (sign_test hw hx).1 h; omega)]
    simp only [shl_ok (show s + 1 < 128 by omega), bind_ok, Nat.one_mul, Nat.mod_eq_of_lt h2s, sub_ok (Nat.two_pow_pos (s + 1)),
      sub_ok hs, shl_ok (show w - s < 128 by omega), hprod]
    rw [Nat.mod_eq_of_lt (by omega), ← hprod, Nat.mul_comm, ← Nat.two_pow_add_eq_or_of_lt hdn, Nat.mul_comm, hprod, hm]
    show Except.ok _ = Except.ok _
    congr 2; omega

-- 8-bit -128 >> 1 should be 192 (-64) but the register holds 448
example : shiftOp .shra (.plain 128 8) (.plain 1 8) = .ok (.plain 448 8) ∧ shMeaning 8 128 1 .shra = 192 ∧
    execBin (.cmp .eq) (.plain 448 8) (.plain 192 8) = .ok (.plain 0 1) := ⟨rfl, by decide, rfl⟩

/-- **C35 (rotations).** Correct for every distance up to the width. -/
theorem C35_rotate_partial {w x s ws : Nat} (hw2 : w < 128) (hx : x < 2 ^ w) (hs : s ≤ w) :
    shiftOp .rotr (.plain x w) (.plain s ws) = .ok (.plain (shMeaning w x s .rotr) w) ∧
    shiftOp .rotl (.plain x w) (.plain s ws) = .ok (.plain (shMeaning w x s .rotl) w) := by
  have key : ∀ k, k ≤ w → ((x * 2 ^ (w - k) % two128) ||| x / 2 ^ k) % 2 ^ w = x % 2 ^ k * 2 ^ (w - k) + x / 2 ^ k ∧
      ((x * 2 ^ k % two128) ||| x / 2 ^ (w - k)) % 2 ^ w = x * 2 ^ k % 2 ^ w + x / 2 ^ (w - k) := by
    have main : ∀ k, k ≤ w → ((x * 2 ^ (w - k) % two128) ||| x / 2 ^ k) % 2 ^ w = x * 2 ^ (w - k) % 2 ^ w + x / 2 ^ k := by
      intro k hk
      have hpn : (2 : Nat) ^ w = 2 ^ (w - k) * 2 ^ k := by rw [← Nat.pow_add]; congr 1; omega
      have hdn : x / 2 ^ k < 2 ^ (w - k) := Nat.div_lt_of_lt_mul (by rw [Nat.mul_comm, ← hpn]; exact hx)
      have e1 : x * 2 ^ (w - k) % 2 ^ w = 2 ^ (w - k) * (x % 2 ^ k) := by
        rw [hpn, Nat.mul_comm x, Nat.mul_mod_mul_left]
      have hxd : x / 2 ^ k < 2 ^ w := Nat.lt_of_le_of_lt (Nat.div_le_self _ _) hx
      rw [← and_mask, Nat.and_or_distrib_right, and_mask, and_mask, mod_two128 (Nat.le_of_lt hw2), Nat.mod_eq_of_lt hxd, e1,
        ← Nat.two_pow_add_eq_or_of_lt hdn]
    intro k hk
    constructor
    · rw [main k hk]
      have hpn : (2 : Nat) ^ w = 2 ^ (w - k) * 2 ^ k := by rw [← Nat.pow_add]; congr 1; omega
      rw [hpn, Nat.mul_comm x, Nat.mul_mod_mul_left, Nat.mul_comm]
    · have := main (w - k) (by omega)
      rw [show w - (w - k) = k by omega] at this
      exact this
  by_cases hsw : s = w
  · subst hsw
    have k1 := (key s (Nat.le_refl _)).1
    have k2 := (key s (Nat.le_refl _)).2
    constructor
    · simp only [shiftOp, Sh.plain, rotrPlain, mask_ok hw2, bind_ok, sub_ok (Nat.le_refl s), shl_ok (show s - s < 128 by omega),
        shr_ok hw2, and_mask, k1, shMeaning, Nat.mod_self]
      show Except.ok _ = Except.ok _
      simp [Nat.mod_one, Nat.mod_eq_of_lt hx, Nat.div_eq_of_lt hx]
    · simp only [shiftOp, Sh.plain, rotlPlain, mask_ok hw2, bind_ok, sub_ok (Nat.le_refl s), shr_ok (show s - s < 128 by omega),
        shl_ok hw2, and_mask, k2, shMeaning, Nat.mod_self]
      show Except.ok _ = Except.ok _
      simp [Nat.mod_eq_of_lt hx, Nat.div_eq_of_lt hx]
  · have hlt : s < w := by omega
    have k1 := (key s hs).1
    have k2 := (key s hs).2
    constructor
    · simp only [shiftOp, Sh.plain, rotrPlain, mask_ok hw2, bind_ok, sub_ok hs, shl_ok (show w - s < 128 by omega),
        shr_ok (show s < 128 by omega), and_mask, k1, shMeaning, Nat.mod_eq_of_lt hlt]
      show Except.ok _ = Except.ok _
      rw [Nat.add_comm]
    · simp only [shiftOp, Sh.plain, rotlPlain, mask_ok hw2, bind_ok, sub_ok hs, shr_ok (show w - s < 128 by omega),
        shl_ok (show s < 128 by omega), and_mask, k2, shMeaning, Nat.mod_eq_of_lt hlt]
      rfl

example : shiftOp .rotr (.plain 3 8) (.plain 1 8) = .ok (.plain 129 8) := rfl

/-- **C35 violated (large distances).** Shifting by 128 or more, and rotating by more than the width, panics instead of
giving the (well defined) result. -/
theorem C35_distance_violated (w x s ws : Nat) :
    (128 ≤ s → shiftOp .shr (.plain x w) (.plain s ws) = .error .panic ∧ shiftOp .shl (.plain x w) (.plain s ws) = .error .panic ∧
      shiftOp .shra (.plain x w) (.plain s ws) = .error .panic) ∧
    (w < s → shiftOp .rotr (.plain x w) (.plain s ws) = .error .panic ∧
      shiftOp .rotl (.plain x w) (.plain s ws) = .error .panic) := by
  have hm : mask w = .error .panic ∨ mask w = .ok (2 ^ w - 1) := by
    by_cases h : w < 128
    · exact Or.inr (mask_ok h)
    · exact Or.inl (mask_128 (by omega))
  have hshl : ∀ n, shl128 x n = .error .panic ∨ ∃ v, shl128 x n = .ok v := by
    intro n; unfold shl128; split
    · exact Or.inr ⟨_, rfl⟩
    · exact Or.inl rfl
  constructor
  · intro h
    have e1 : shr128 x s = .error .panic := by unfold shr128; rw [if_neg (by omega)]
    have e2 : shl128 x s = .error .panic := by unfold shl128; rw [if_neg (by omega)]
    simp only [shiftOp, Sh.plain, shraPlain, e1, e2, bind_err, and_self]
  · intro h
    have e1 : sub128 w s = .error .panic := by unfold sub128; rw [if_neg (by omega)]
    constructor
    · simp only [shiftOp, Sh.plain, rotrPlain]
      rcases hm with h | h <;> simp only [h, bind_err, bind_ok, e1]
    · simp only [shiftOp, Sh.plain, rotlPlain]
      rcases hm with h | h <;> simp only [h, bind_err, bind_ok]
      rcases hshl s with h | ⟨v, h⟩ <;> simp only [h, bind_err, bind_ok, e1]

/-! ### C36: encrypted operands -/

/-- widths for which the encrypted multiplier is known to be built: at most 32, or at most 16 times a power of two
(hence every power of two). -/
def mulWidth (w : Nat) : Prop := w ≤ 32 ∨ ∃ c j, 1 ≤ c ∧ c ≤ 16 ∧ w = c * 2 ^ j

/-- **C36 (two-operand instructions).** Whenever at least one operand is encrypted (the other may be a plaintext), for
every width from 1 to 128 and all values, the instruction succeeds with an encrypted register of the right width that
decrypts to the `w`-bit result. For multiplication the width must be one of `mulWidth` (at width 33, for instance, the
multiplier panics, `C36_mul33_violated`). -/
theorem C36_binary_partial (op : Bin) {a b : Reg} (ha : Reg.Fits a) (hb : Reg.Fits b) (hab : a.width = b.width)
    (h1 : 1 ≤ a.width) (h2 : a.width ≤ 128) (henc : a.isPlain = false ∨ b.isPlain = false)
    (hmul : op = .mul → mulWidth a.width) :
    ∃ bits, execBin op a b = .ok (.cipher bits) ∧ bits.length = binWidth a.width op ∧
      valLE bits = binMeaning a.width (Reg.value a) (Reg.value b) op := by
  have hc := checkWidth_ok hab h1 h2
  have la := lift_length a
  have lb : (lift b).length = a.width := by rw [lift_length, hab]
  have va := lift_val ha
  have vb := lift_val hb
  have hla : (lift a).length = (lift b).length := by omega
  have zl := zipBits_length (lift a) (lift b) hla
  have ze := zipBits_eq (lift a) (lift b) hla
  have hval := value_lt ha
  have hvbl : Reg.value b < 2 ^ a.width := by rw [hab]; exact value_lt hb
  cases op with
  | add =>
    obtain ⟨out, e1, e2, e3⟩ := addCircuit_ok la lb h1 h2 none
    obtain ⟨d1, d2, _⟩ := dropLast_val out _ e2
    refine ⟨out.dropLast, ?_, d1, by rw [d2, e3, va, vb]; rfl⟩
    simp only [Option.map_none] at e1
    simp only [execBin, Cpu.add, hc, bind_ok, e1]
    cases a <;> cases b <;> first | rfl | (simp [Reg.isPlain] at henc)
  | sub =>
    obtain ⟨diff, bo, e1, e2, e3, _⟩ := subCircuit_ok la lb h1 h2 none
    refine ⟨diff, ?_, e2, ?_⟩
    · simp only [Option.map_none] at e1
      simp only [execBin, Cpu.sub, hc, bind_ok, e1, List.dropLast_concat]
      cases a <;> cases b <;> first | rfl | (simp [Reg.isPlain] at henc)
    · rw [va, vb] at e3
      simp only [binMeaning]
      have e4 : ((Reg.value a + 2 ^ a.width - Reg.value b : Nat) : Int) = (Reg.value a : Int) - Reg.value b + 2 ^ a.width := by
        rw [Nat.cast_sub (by omega)]; push_cast; ring
      have e5 : (((Reg.value a + 2 ^ a.width - Reg.value b) % 2 ^ a.width : Nat) : Int) = valLE diff := by
        rw [Int.natCast_mod, e4]; push_cast; rw [Int.add_emod_right, e3]; simp
      exact_mod_cast e5.symm
  | mul =>
    have hm : ∃ r, Mul.mulImpl (lift a) (lift b) = some r := by
      rcases hmul rfl with h | ⟨c, j, hc1, hc2, hcj⟩
      · obtain ⟨r, hr, _⟩ := C10_mul_exact_small (lift a) (lift b) (by omega)
        exact ⟨r, hr⟩
      · obtain ⟨r, hr, _⟩ := C10_mul_exact c j hc1 hc2 (lift a) (lift b) (by omega) (by omega) (by simp only [maxVars]; omega)
        exact ⟨r, hr⟩
    obtain ⟨r, hr⟩ := hm
    obtain ⟨r1, r2⟩ := C10_mul_sound _ _ _ hr
    refine ⟨r.take a.width, ?_, by rw [List.length_take, r1, la, lb]; simp [binWidth], ?_⟩
    · have hmm : ∃ m, (if a.width < 128 then mask a.width else .ok (two128 - 1)) = (Except.ok m : Except Err Nat) := by
        split
        · rename_i h; exact ⟨_, mask_ok h⟩
        · exact ⟨_, rfl⟩
      obtain ⟨m, hmm⟩ := hmm
      simp only [execBin, Cpu.mul, hc, bind_ok, hmm, Mul.appendUintMultiply, hr, Option.map_some, la]
      cases a <;> cases b <;> first | rfl | (simp [Reg.isPlain] at henc)
    · have hsplit : valLE r = valLE (r.take a.width) + 2 ^ a.width * valLE (r.drop a.width) := by
        conv_lhs => rw [← List.take_append_drop a.width r]
        rw [valLE_append, List.length_take, Nat.min_eq_left (by omega)]
      have hlt := valLE_lt (r.take a.width)
      rw [List.length_take, Nat.min_eq_left (by omega)] at hlt
      simp only [binMeaning]
      rw [← va, ← vb, ← r2, hsplit, Nat.add_mul_mod_self_left, Nat.mod_eq_of_lt hlt]
  | and =>
    obtain ⟨outs, e1, e2⟩ := C04_and (lift a) (lift b) hla (by simp only [maxVars]; omega)
    rw [la] at e1
    refine ⟨List.zipWith (· && ·) (lift a) (lift b), ?_, by simp [binWidth, la, lb], ?_⟩
    · simp only [execBin, Cpu.and, hc, bind_ok, e1]
      rw [runCircuit_ok (by omega), ze, e2]
      cases a <;> cases b <;> first | rfl | (simp [Reg.isPlain] at henc)
    · rw [valLE_zipWith _ (· &&& ·) _ _ hla (by rw [va, vb, la]; exact Nat.and_lt_two_pow _ hvbl) (fun i => Nat.testBit_and ..), va, vb]
      rfl
  | or =>
    obtain ⟨outs, e1, e2⟩ := C04_or (lift a) (lift b) hla (by simp only [maxVars]; omega)
    rw [la] at e1
    refine ⟨List.zipWith (· || ·) (lift a) (lift b), ?_, by simp [binWidth, la, lb], ?_⟩
    · simp only [execBin, Cpu.or, hc, bind_ok, e1]
      rw [runCircuit_ok (by omega), ze, e2]
      cases a <;> cases b <;> first | rfl | (simp [Reg.isPlain] at henc)
    · rw [valLE_zipWith _ (· ||| ·) _ _ hla (by rw [va, vb, la]; exact Nat.or_lt_two_pow hval hvbl) (fun i => Nat.testBit_or ..), va, vb]
      rfl
  | xor =>
    refine ⟨List.zipWith Bool.xor (lift a) (lift b), ?_, by simp [binWidth, la, lb], ?_⟩
    · simp only [execBin, Cpu.xor, hc, bind_ok]
      cases a <;> cases b <;> first | rfl | (simp [Reg.isPlain] at henc)
    · rw [valLE_zipWith _ (· ^^^ ·) _ _ hla (by rw [va, vb, la]; exact Nat.xor_lt_two_pow hval hvbl) (fun i => Nat.testBit_xor ..), va, vb]
      rfl
  | cmp c =>
    obtain ⟨out, e1, e2⟩ := circuit_cmp c (lift a) (lift b) hla (by omega) (by simp only [maxVars]; omega)
    rw [la] at e1 e2
    refine ⟨[out (wires (interleave (lift a) (lift b)))], ?_, rfl, ?_⟩
    · simp only [execBin, Cpu.cmp, hc, bind_ok, e1]
      rw [runCircuit_ok (by omega), ze]
      cases a <;> cases b <;> first | rfl | (simp [Reg.isPlain] at henc)
    · rw [valLE_single]
      simp only [binMeaning]
      rw [← va, ← vb]
      by_cases h : cmpHolds a.width (valLE (lift a)) (valLE (lift b)) c
      · rw [if_pos h, if_pos (e2.2 h)]
      · rw [if_neg h, if_neg (fun h' => h (e2.1 h'))]

/-- **C36 (two-operand instructions, agreement).** Replacing any plaintext operand by an encryption of the same value
changes the result only by encrypting it: both runs succeed and the encrypted result decrypts to the plaintext one. -/
theorem C36_agreement_partial (op : Bin) {w x y : Nat} {a b : Reg} (hw : 1 ≤ w) (hw2 : w < 128) (hx : x < 2 ^ w) (hy : y < 2 ^ w)
    (ha : a = .plain x w ∨ ∃ bits, a = .cipher bits ∧ bits.length = w ∧ valLE bits = x)
    (hb : b = .plain y w ∨ ∃ bits, b = .cipher bits ∧ bits.length = w ∧ valLE bits = y)
    (henc : a.isPlain = false ∨ b.isPlain = false) (hmul : op = .mul → mulWidth w) :
    ∃ v wr bits, execBin op (.plain x w) (.plain y w) = .ok (.plain v wr) ∧ execBin op a b = .ok (.cipher bits) ∧
      bits.length = wr ∧ valLE bits = v := by
  have fa : Reg.Fits a ∧ a.width = w ∧ Reg.value a = x := by
    rcases ha with rfl | ⟨bits, rfl, h1, h2⟩
    · exact ⟨hx, rfl, rfl⟩
    · exact ⟨trivial, h1, h2⟩
  have fb : Reg.Fits b ∧ b.width = w ∧ Reg.value b = y := by
    rcases hb with rfl | ⟨bits, rfl, h1, h2⟩
    · exact ⟨hy, rfl, rfl⟩
    · exact ⟨trivial, h1, h2⟩
  obtain ⟨bits, e1, e2, e3⟩ := C36_binary_partial op fa.1 fb.1 (by omega) (by omega) (by omega) henc (by rw [fa.2.1]; exact hmul)
  refine ⟨_, _, bits, C35_binary_partial op hw hw2 hx hy, e1, by rw [e2, fa.2.1], by rw [e3, fa.2.1, fa.2.2, fb.2.2]⟩

-- encrypted 5 minus plaintext 6 at 3 bits
example : ∃ bits, execBin .sub (.cipher [true, false, true]) (.plain 6 3) = .ok (.cipher bits) ∧ bits.length = 3 ∧ valLE bits = 7 :=
  C36_binary_partial .sub trivial (by show (6 : Nat) < 8; decide) rfl (by decide) (by decide) (Or.inl rfl) (by simp)

/-- **C36 violated (multiplication).** Two plaintext 33-bit registers multiply, two encrypted ones panic. -/
theorem C36_mul33_violated : ∃ x y : Nat, ∃ a b : List Bool, a.length = 33 ∧ b.length = 33 ∧ valLE a = x ∧ valLE b = y ∧
    execBin .mul (.plain x 33) (.plain y 33) = .ok (.plain 6 33) ∧ execBin .mul (.cipher a) (.cipher b) = .error .panic := by
  refine ⟨2, 3, valueBits 2 33, valueBits 3 33, by simp [valueBits], by simp [valueBits], by rw [valLE_valueBits]; rfl,
    by rw [valLE_valueBits]; rfl, rfl, ?_⟩
  have h := C10_33_violated (valueBits 2 33) (valueBits 3 33) (by simp [valueBits]) (by simp [valueBits])
  have hc : checkWidth (.cipher (valueBits 2 33)) (.cipher (valueBits 3 33)) = .ok () :=
    checkWidth_ok (by simp [Reg.width, valueBits]) (by simp [Reg.width, valueBits]) (by simp [Reg.width, valueBits])
  have hm : (if (Reg.cipher (valueBits 2 33)).width < 128 then mask (Reg.cipher (valueBits 2 33)).width else .ok (two128 - 1))
      = (Except.ok (2 ^ 33 - 1) : Except Err Nat) := by rfl
  simp only [execBin, Cpu.mul, hc, bind_ok, hm, lift, Mul.appendUintMultiply, h, Option.map_none]

/-- **C36 (Not).** -/
theorem C36_not (b : List Bool) : ∃ bits, Cpu.not (.cipher b) = .ok (.cipher bits) ∧ bits.length = b.length ∧
    valLE bits = 2 ^ b.length - 1 - valLE b := ⟨_, rfl, by simp, valLE_map_not b⟩

/-- **C36 violated (Neg).** Negating any encrypted register panics (`todo!()`), although plaintext registers negate. -/
theorem C36_neg_violated (b : List Bool) : neg (.cipher b) = .error .panic := rfl

/-- **C36 (add with carry).** -/
theorem C36_addc {a b c : Reg} (ha : Reg.Fits a) (hb : Reg.Fits b) (hc : Reg.Fits c) (hab : a.width = b.width)
    (h1 : 1 ≤ a.width) (h2 : a.width ≤ 128) (hcw : c.width = 1)
    (henc : a.isPlain = false ∨ b.isPlain = false ∨ c.isPlain = false) :
    ∃ s k, addC a b c = .ok (.cipher s, .cipher k) ∧ s.length = a.width ∧ k.length = 1 ∧
      valLE s = (Reg.value a + Reg.value b + Reg.value c) % 2 ^ a.width ∧
      valLE k = (Reg.value a + Reg.value b + Reg.value c) / 2 ^ a.width := by
  have hck := checkWidth_ok hab h1 h2
  have la := lift_length a
  have lb : (lift b).length = a.width := by rw [lift_length, hab]
  have va := lift_val ha
  have vb := lift_val hb
  obtain ⟨x, hx⟩ : ∃ x, lift c = [x] := by
    have := lift_length c; rw [hcw] at this
    exact List.length_eq_one_iff.1 this
  have vc : bit x = Reg.value c := by rw [← lift_val hc, hx]; simp
  obtain ⟨out, e1, e2, e3⟩ := addCircuit_ok la lb h1 h2 (some x)
  obtain ⟨d1, d2, d3⟩ := dropLast_val out _ e2
  simp only at e3
  refine ⟨out.dropLast, [out.getLastD false], ?_, d1, rfl, by rw [d2, e3, va, vb, vc], by
    rw [valLE_cons, valLE_nil, Nat.mul_zero, Nat.add_zero, d3, e3, va, vb, vc]⟩
  simp only [Option.map_some] at e1
  unfold addC
  rw [hck, bind_ok, if_neg (by omega)]
  cases a <;> cases b <;> cases c <;>
    first | (simp only [hx, e1, bind_ok]; rfl) | (simp [Reg.isPlain] at henc)

/-- **C36 (subtract with borrow).** -/
theorem C36_subb {a b c : Reg} (ha : Reg.Fits a) (hb : Reg.Fits b) (hc : Reg.Fits c) (hab : a.width = b.width)
    (h1 : 1 ≤ a.width) (h2 : a.width ≤ 128) (hcw : c.width = 1)
    (henc : a.isPlain = false ∨ b.isPlain = false ∨ c.isPlain = false) :
    ∃ s k, subB a b c = .ok (.cipher s, .cipher [k]) ∧ s.length = a.width ∧
      (valLE s : Int) = ((Reg.value a : Int) - Reg.value b - Reg.value c) % 2 ^ a.width ∧
      (k = true ↔ Reg.value a < Reg.value b + Reg.value c) := by
  have hck := checkWidth_ok hab h1 h2
  have la := lift_length a
  have lb : (lift b).length = a.width := by rw [lift_length, hab]
  have va := lift_val ha
  have vb := lift_val hb
  obtain ⟨x, hx⟩ : ∃ x, lift c = [x] := by
    have := lift_length c; rw [hcw] at this
    exact List.length_eq_one_iff.1 this
  have vc : bit x = Reg.value c := by rw [← lift_val hc, hx]; simp
  obtain ⟨diff, bo, e1, e2, e3, e4⟩ := subCircuit_ok la lb h1 h2 (some x)
  simp only [va, vb, vc] at e3 e4
  refine ⟨diff, bo, ?_, e2, e3, e4⟩
  simp only [Option.map_some] at e1
  have hl : (diff ++ [bo]).getLastD false = bo := by simp [List.getLastD_eq_getLast?]
  unfold subB
  rw [hck, bind_ok, if_neg (by omega)]
  cases a <;> cases b <;> cases c <;>
    first | (simp only [hx, e1, bind_ok, List.dropLast_concat, hl]; rfl) | (simp [Reg.isPlain] at henc)

/-- **C36 (conditional move).** With a one-bit selector of either kind and operands of equal width of any kinds, the
result holds the first operand's value when the selector is 1 and the second's when it is 0. -/
theorem C36_cmux {s a b : Reg} (hs : Reg.Fits s) (ha : Reg.Fits a) (hb : Reg.Fits b) (hab : a.width = b.width)
    (h1 : 1 ≤ a.width) (h2 : a.width ≤ 128) (hsw : s.width = 1) :
    ∃ r, cmux s a b = .ok r ∧ r.width = a.width ∧ Reg.Fits r ∧ Reg.value r = (if Reg.value s = 1 then Reg.value a else Reg.value b) ∧
      (r.isPlain = true ↔ s.isPlain = true ∧ a.isPlain = true ∧ b.isPlain = true) := by
  have hck := checkWidth_ok hab h1 h2
  have la := lift_length a
  have lb : (lift b).length = a.width := by rw [lift_length, hab]
  have va := lift_val ha
  have vb := lift_val hb
  have hlt := value_lt hs
  rw [hsw] at hlt
  unfold cmux
  rw [hck, bind_ok, if_neg (by omega)]
  cases s with
  | plain v w =>
    simp only [Reg.value] at hlt ⊢
    have hv : v = 0 ∨ v = 1 := by omega
    rcases hv with rfl | rfl
    · cases a <;> cases b
      · refine ⟨_, rfl, rfl, ?_, rfl, by simp [Reg.isPlain]⟩
        simp only [Reg.width] at hab; subst hab; exact hb
      all_goals exact ⟨_, rfl, lb, trivial, vb, by simp [Reg.isPlain]⟩
    · cases a <;> cases b
      · exact ⟨_, rfl, rfl, ha, rfl, by simp [Reg.isPlain]⟩
      all_goals exact ⟨_, rfl, la, trivial, va, by simp [Reg.isPlain]⟩
  | cipher bits =>
    obtain ⟨x, rfl⟩ : ∃ x, bits = [x] := List.length_eq_one_iff.1 hsw
    refine ⟨_, rfl, by simp [Reg.width, lift_length, hab, la, lb], trivial, ?_, by simp [Reg.isPlain]⟩
    simp only [Reg.value, List.getD_cons_zero]
    have hz := zipWith_sel x (lift b) (lift a) (by omega)
    have hz2 : List.zipWith (fun h l => bif x then h else l) (lift a) (lift b) = if x then lift a else lift b := by
      cases x
      · simp only [cond_false]
        apply List.ext_getElem
        · simp [la, lb]
        · intro i h1 h2; simp
      · simp only [cond_true]
        apply List.ext_getElem
        · simp [la, lb]
        · intro i h1 h2; simp
    rw [hz2]
    cases x <;> simp [va, vb, Reg.value]

end Spf.Props
