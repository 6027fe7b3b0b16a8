import Verif.Props.AluShift
import Verif.Props.LoadStore
import Verif.Props.Machine
/-! C81: what each instruction does to the state a programmer sees. C82: what each instruction costs.

The operand order is that of the instruction table: destinations, sources, metadata. -/
namespace Spf.Props
open Spf.Cpu Spf.Spec Spf.Seq Spf.Shift

/-- The instruction wrote `v` to register `d`, changed nothing else and went on to the next instruction. -/
def Sets (a b : Regs) (d : Nat) (v : Reg) : Prop :=
  b.pc = a.pc + 8 ∧ b.mem = a.mem ∧ b.reg d = v ∧ ∀ r, r ≠ d → b.reg r = a.reg r

/-- Register `v` is a well-formed `w`-bit register holding the number `x`; it is encrypted or not as said. -/
def Carries (v : Reg) (w x : Nat) (plain : Bool) : Prop :=
  v.width = w ∧ Reg.Fits v ∧ Reg.value v = x ∧ v.isPlain = plain

theorem nextPc_ok {pc : Nat} (h : pc + 8 < 2 ^ 32) : nextPc pc = .ok (pc + 8) := if_pos h

theorem step_one {prog : Nat → Except Err Inst} {a : Regs} {i : Inst} {d : Nat} {v : Reg} (hp : prog a.pc = .ok i)
    (hpc : a.pc + 8 < 2 ^ 32) (hacc : i.access (i.srcs.map a.reg) = .ok []) (hd : i.dsts = [d])
    (hex : i.exec (i.srcs.map a.reg) a.mem = .ok ([v], a.mem)) (hn : i.next a.pc (i.srcs.map a.reg) = nextPc a.pc) :
    ∃ b, Seq.step parasol prog a = .ok (b, false) ∧ Sets a b d v := by
  refine ⟨{ reg := fun r => if r = d then v else a.reg r, mem := a.mem, pc := a.pc + 8 }, ?_, rfl, rfl, if_pos rfl, fun r h => if_neg h⟩
  simp only [Seq.step, hp, Seq.effect, parasol, hacc, hex, hd, Seq.assign, hn, nextPc_ok hpc]
  rfl

/-- The two-operand instructions and what they compute. -/
def binaryTable : List (Op × Bin) :=
  [(.add, .add), (.sub, .sub), (.mul, .mul), (.and, .and), (.or, .or), (.xor, .xor), (.cmpEq, .cmp .eq), (.cmpGt, .cmp .gt),
   (.cmpGe, .cmp .ge), (.cmpLt, .cmp .lt), (.cmpLe, .cmp .le), (.cmpGtS, .cmp .gts), (.cmpGeS, .cmp .ges), (.cmpLtS, .cmp .lts),
   (.cmpLeS, .cmp .les)]

/-- The shifts and rotations. -/
def shiftTable : List (Op × Sh) := [(.shr, .shr), (.shra, .shra), (.shl, .shl), (.rotr, .rotr), (.rotl, .rotl)]

/-- **C81 (arithmetic and comparisons; partial: plaintext widths below 128, multiplication of the supported widths when
encrypted).** `op d, x, y` writes the `w`-bit result of the contents of `x` and `y`, encrypted exactly when an operand is. -/
theorem C81_binary_partial (prog : Nat → Except Err Inst) (a : Regs) (o : Op) (f : Bin) (ho : (o, f) ∈ binaryTable) (d x y : Nat)
    (hp : prog a.pc = .ok ⟨o, [(d : Int), (x : Int), (y : Int)]⟩) (hpc : a.pc + 8 < 2 ^ 32) (w : Nat) (hw : 1 ≤ w) (hw2 : w ≤ 128)
    (hx : Reg.Fits (a.reg x)) (hy : Reg.Fits (a.reg y)) (hxw : (a.reg x).width = w) (hyw : (a.reg y).width = w)
    (h128 : (a.reg x).isPlain = true → (a.reg y).isPlain = true → w < 128)
    (hmul : f = .mul → (a.reg x).isPlain = false ∨ (a.reg y).isPlain = false → mulWidth w) :
    ∃ b v, Seq.step parasol prog a = .ok (b, false) ∧ Sets a b d v ∧
      Carries v (binWidth w f) (binMeaning w (Reg.value (a.reg x)) (Reg.value (a.reg y)) f) ((a.reg x).isPlain && (a.reg y).isPlain) := by
  have key : ∃ v, execBin f (a.reg x) (a.reg y) = .ok v ∧
      Carries v (binWidth w f) (binMeaning w (Reg.value (a.reg x)) (Reg.value (a.reg y)) f) ((a.reg x).isPlain && (a.reg y).isPlain) := by
    generalize a.reg x = vx at *
    generalize a.reg y = vy at *
    by_cases hb : vx.isPlain = true ∧ vy.isPlain = true
    · cases vx with
      | cipher _ => simp [Reg.isPlain] at hb
      | plain nx wx =>
        cases vy with
        | cipher _ => simp [Reg.isPlain] at hb
        | plain ny wy =>
          simp only [Reg.width] at hxw hyw
          subst hxw; subst hyw
          exact ⟨_, C35_binary_partial f hw (h128 hb.1 hb.2) hx hy, rfl, C35_binary_fits f hx hy, rfl, rfl⟩
    · have henc : vx.isPlain = false ∨ vy.isPlain = false := by
        cases h1 : vx.isPlain <;> cases h2 : vy.isPlain <;> simp_all
      obtain ⟨bits, e1, e2, e3⟩ := C36_binary_partial f hx hy (hxw.trans hyw.symm) (by omega) (by omega) henc
        (fun h => by rw [hxw]; exact hmul h henc)
      rw [hxw] at e2 e3
      have hf : (vx.isPlain && vy.isPlain) = false := by rcases henc with h | h <;> simp [h]
      exact ⟨_, e1, e2, trivial, e3, hf.symm⟩
  obtain ⟨v, hv, hc⟩ := key
  simp only [binaryTable, List.mem_cons, List.not_mem_nil, or_false, Prod.mk.injEq] at ho
  have hs : ∃ b, Seq.step parasol prog a = .ok (b, false) ∧ Sets a b d v := by
    rcases ho with ⟨rfl, rfl⟩ | ⟨rfl, rfl⟩ | ⟨rfl, rfl⟩ | ⟨rfl, rfl⟩ | ⟨rfl, rfl⟩ | ⟨rfl, rfl⟩ | ⟨rfl, rfl⟩ | ⟨rfl, rfl⟩ | ⟨rfl, rfl⟩ |
      ⟨rfl, rfl⟩ | ⟨rfl, rfl⟩ | ⟨rfl, rfl⟩ | ⟨rfl, rfl⟩ | ⟨rfl, rfl⟩ | ⟨rfl, rfl⟩ <;>
    exact step_one hp hpc rfl rfl (by
      simp only [Inst.exec, Inst.srcs, Inst.nat, Inst.arg, List.getD_cons_zero, List.getD_cons_succ, Int.toNat_natCast, List.map_cons,
        List.map_nil, Inst.alu, Op.bin?, hv, one]) rfl
  obtain ⟨b, h1, h2⟩ := hs
  exact ⟨b, v, h1, h2, hc⟩

/-- **C81 (add with carry).** `addc d, c, x, y, ci` writes the sum to `d` and the carry out to `c`. -/
theorem C81_addc_partial (prog : Nat → Except Err Inst) (a : Regs) (d co x y ci : Nat) (hd : d ≠ co)
    (hp : prog a.pc = .ok ⟨.addC, [(d : Int), (co : Int), (x : Int), (y : Int), (ci : Int)]⟩) (hpc : a.pc + 8 < 2 ^ 32)
    (w : Nat) (hw : 1 ≤ w) (hw2 : w < 128)
    (hx : Reg.Fits (a.reg x)) (hy : Reg.Fits (a.reg y)) (hc : Reg.Fits (a.reg ci))
    (hxw : (a.reg x).width = w) (hyw : (a.reg y).width = w) (hcw : (a.reg ci).width = 1) :
    ∃ b, Seq.step parasol prog a = .ok (b, false) ∧ b.pc = a.pc + 8 ∧ b.mem = a.mem ∧ (∀ r, r ≠ d → r ≠ co → b.reg r = a.reg r) ∧
      Carries (b.reg d) w ((Reg.value (a.reg x) + Reg.value (a.reg y) + Reg.value (a.reg ci)) % 2 ^ w)
        ((a.reg x).isPlain && (a.reg y).isPlain && (a.reg ci).isPlain) ∧
      Carries (b.reg co) 1 ((Reg.value (a.reg x) + Reg.value (a.reg y) + Reg.value (a.reg ci)) / 2 ^ w)
        ((a.reg x).isPlain && (a.reg y).isPlain && (a.reg ci).isPlain) := by
  have key : ∃ s k, addC (a.reg x) (a.reg y) (a.reg ci) = .ok (s, k) ∧
      Carries s w ((Reg.value (a.reg x) + Reg.value (a.reg y) + Reg.value (a.reg ci)) % 2 ^ w)
        ((a.reg x).isPlain && (a.reg y).isPlain && (a.reg ci).isPlain) ∧
      Carries k 1 ((Reg.value (a.reg x) + Reg.value (a.reg y) + Reg.value (a.reg ci)) / 2 ^ w)
        ((a.reg x).isPlain && (a.reg y).isPlain && (a.reg ci).isPlain) := by
    generalize a.reg x = vx at *
    generalize a.reg y = vy at *
    generalize a.reg ci = vc at *
    by_cases hb : vx.isPlain = true ∧ vy.isPlain = true ∧ vc.isPlain = true
    · cases vx with
      | cipher _ => simp [Reg.isPlain] at hb
      | plain nx wx =>
        cases vy with
        | cipher _ => simp [Reg.isPlain] at hb
        | plain ny wy =>
          cases vc with
          | cipher _ => simp [Reg.isPlain] at hb
          | plain nc wc =>
            simp only [Reg.width] at hxw hyw hcw
            subst hxw; subst hyw; subst hcw
            simp only [Reg.Fits] at hx hy hc
            refine ⟨_, _, C35_addc_partial hw hw2 hx hy (by omega), ⟨rfl, Nat.mod_lt _ (Nat.two_pow_pos _), rfl, rfl⟩, rfl, ?_, rfl, rfl⟩
            simp only [Reg.Fits]
            exact Nat.div_lt_of_lt_mul (by omega)
    · have henc : vx.isPlain = false ∨ vy.isPlain = false ∨ vc.isPlain = false := by
        cases h1 : vx.isPlain <;> cases h2 : vy.isPlain <;> cases h3 : vc.isPlain <;> simp_all
      obtain ⟨s, k, e1, e2, e3, e4, e5⟩ := C36_addc hx hy hc (hxw.trans hyw.symm) (by omega) (by omega) hcw henc
      rw [hxw] at e2 e4 e5
      have hf : (vx.isPlain && vy.isPlain && vc.isPlain) = false := by rcases henc with h | h | h <;> simp [h]
      exact ⟨_, _, e1, ⟨e2, trivial, e4, hf.symm⟩, e3, trivial, e5, hf.symm⟩
  obtain ⟨s, k, hv, h1, h2⟩ := key
  refine ⟨{ reg := fun r => if r = co then k else if r = d then s else a.reg r, mem := a.mem, pc := a.pc + 8 }, ?_, rfl, rfl, ?_, ?_, ?_⟩
  · simp only [Seq.step, hp, Seq.effect, parasol, Inst.access, Inst.exec, Inst.srcs, Inst.dsts, Inst.nat, Inst.arg, List.getD_cons_zero,
      List.getD_cons_succ, Int.toNat_natCast, List.map_cons, List.map_nil, Inst.alu, hv, two, Seq.assign, Inst.next, nextPc_ok hpc]
  · intro r hr hr'; simp [hr, hr']
  · simpa [hd] using h1
  · simpa using h2

/-- **C81 (subtract with borrow).** -/
theorem C81_subb_partial (prog : Nat → Except Err Inst) (a : Regs) (d bo x y bi : Nat) (hd : d ≠ bo)
    (hp : prog a.pc = .ok ⟨.subB, [(d : Int), (bo : Int), (x : Int), (y : Int), (bi : Int)]⟩) (hpc : a.pc + 8 < 2 ^ 32)
    (w : Nat) (hw : 1 ≤ w) (hw2 : w < 128)
    (hx : Reg.Fits (a.reg x)) (hy : Reg.Fits (a.reg y)) (hc : Reg.Fits (a.reg bi))
    (hxw : (a.reg x).width = w) (hyw : (a.reg y).width = w) (hcw : (a.reg bi).width = 1) :
    ∃ b, Seq.step parasol prog a = .ok (b, false) ∧ b.pc = a.pc + 8 ∧ b.mem = a.mem ∧ (∀ r, r ≠ d → r ≠ bo → b.reg r = a.reg r) ∧
      Carries (b.reg d) w (((Reg.value (a.reg x) : Int) - Reg.value (a.reg y) - Reg.value (a.reg bi)) % 2 ^ w).toNat
        ((a.reg x).isPlain && (a.reg y).isPlain && (a.reg bi).isPlain) ∧
      Carries (b.reg bo) 1 (if Reg.value (a.reg x) < Reg.value (a.reg y) + Reg.value (a.reg bi) then 1 else 0)
        ((a.reg x).isPlain && (a.reg y).isPlain && (a.reg bi).isPlain) := by
  have key : ∃ s k, subB (a.reg x) (a.reg y) (a.reg bi) = .ok (s, k) ∧
      Carries s w (((Reg.value (a.reg x) : Int) - Reg.value (a.reg y) - Reg.value (a.reg bi)) % 2 ^ w).toNat
        ((a.reg x).isPlain && (a.reg y).isPlain && (a.reg bi).isPlain) ∧
      Carries k 1 (if Reg.value (a.reg x) < Reg.value (a.reg y) + Reg.value (a.reg bi) then 1 else 0)
        ((a.reg x).isPlain && (a.reg y).isPlain && (a.reg bi).isPlain) := by
    generalize a.reg x = vx at *
    generalize a.reg y = vy at *
    generalize a.reg bi = vc at *
    by_cases hb : vx.isPlain = true ∧ vy.isPlain = true ∧ vc.isPlain = true
    · cases vx with
      | cipher _ => simp [Reg.isPlain] at hb
      | plain nx wx =>
        cases vy with
        | cipher _ => simp [Reg.isPlain] at hb
        | plain ny wy =>
          cases vc with
          | cipher _ => simp [Reg.isPlain] at hb
          | plain nc wc =>
            simp only [Reg.width] at hxw hyw hcw
            subst hxw; subst hyw; subst hcw
            simp only [Reg.Fits] at hx hy hc
            refine ⟨_, _, C35_subb_partial hw hw2 hx hy (by omega), ⟨rfl, Nat.mod_lt _ (Nat.two_pow_pos _), ?_, rfl⟩, rfl, ?_, rfl, rfl⟩
            · simp only [Reg.value]
              have h2 := Nat.two_pow_pos wy
              have hw1 : 2 ≤ 2 ^ wy := by
                have := Nat.pow_le_pow_right (n := 2) (by omega) hw
                simpa using this
              rw [pow_one] at hc
              have e : ((nx : Int) - ny - nc) % 2 ^ wy = ((nx + 2 ^ wy + 2 ^ wy - ny - nc : Nat) : Int) % ((2 ^ wy : Nat) : Int) := by
                have : ((nx + 2 ^ wy + 2 ^ wy - ny - nc : Nat) : Int) = (nx : Int) - ny - nc + 2 ^ wy * 2 := by
                  have hp2 : ((2 ^ wy : Nat) : Int) = 2 ^ wy := by push_cast; rfl
                  rw [← hp2]; omega
                rw [this]; push_cast; rw [Int.add_mul_emod_self_left]
              rw [e, ← Int.natCast_mod, Int.toNat_natCast]
            · simp only [Reg.Fits]; split <;> omega
    · have henc : vx.isPlain = false ∨ vy.isPlain = false ∨ vc.isPlain = false := by
        cases h1 : vx.isPlain <;> cases h2 : vy.isPlain <;> cases h3 : vc.isPlain <;> simp_all
      obtain ⟨s, k, e1, e2, e3, e4⟩ := C36_subb hx hy hc (hxw.trans hyw.symm) (by omega) (by omega) hcw henc
      rw [hxw] at e2 e3
      have hf : (vx.isPlain && vy.isPlain && vc.isPlain) = false := by rcases henc with h | h | h <;> simp [h]
      refine ⟨_, _, e1, ⟨e2, trivial, ?_, hf.symm⟩, rfl, trivial, ?_, hf.symm⟩
      · show valLE s = _
        rw [← e3]; simp
      · show valLE [k] = _
        by_cases hlt : Reg.value vx < Reg.value vy + Reg.value vc
        · rw [if_pos hlt, e4.2 hlt]; rfl
        · rw [if_neg hlt]
          cases k with
          | false => rfl
          | true => exact absurd (e4.1 rfl) hlt
  obtain ⟨s, k, hv, h1, h2⟩ := key
  refine ⟨{ reg := fun r => if r = bo then k else if r = d then s else a.reg r, mem := a.mem, pc := a.pc + 8 }, ?_, rfl, rfl, ?_, ?_, ?_⟩
  · simp only [Seq.step, hp, Seq.effect, parasol, Inst.access, Inst.exec, Inst.srcs, Inst.dsts, Inst.nat, Inst.arg, List.getD_cons_zero,
      List.getD_cons_succ, Int.toNat_natCast, List.map_cons, List.map_nil, Inst.alu, hv, two, Seq.assign, Inst.next, nextPc_ok hpc]
  · intro r hr hr'; simp [hr, hr']
  · simpa [hd] using h1
  · simpa using h2

/-- **C81 (select).** `cmux d, s, x, y` writes the contents of `x` when the one-bit register `s` holds 1, else of `y`; the result
is a plaintext exactly when all three are. -/
theorem C81_cmux (prog : Nat → Except Err Inst) (a : Regs) (d s x y : Nat)
    (hp : prog a.pc = .ok ⟨.cmux, [(d : Int), (s : Int), (x : Int), (y : Int)]⟩) (hpc : a.pc + 8 < 2 ^ 32)
    (w : Nat) (hw : 1 ≤ w) (hw2 : w ≤ 128) (hs : Reg.Fits (a.reg s)) (hx : Reg.Fits (a.reg x)) (hy : Reg.Fits (a.reg y))
    (hsw : (a.reg s).width = 1) (hxw : (a.reg x).width = w) (hyw : (a.reg y).width = w) :
    ∃ b v, Seq.step parasol prog a = .ok (b, false) ∧ Sets a b d v ∧
      Carries v w (if Reg.value (a.reg s) = 1 then Reg.value (a.reg x) else Reg.value (a.reg y))
        ((a.reg s).isPlain && (a.reg x).isPlain && (a.reg y).isPlain) := by
  obtain ⟨v, e1, e2, e3, e4, e5⟩ := C36_cmux hs hx hy (hxw.trans hyw.symm) (by omega) (by omega) hsw
  obtain ⟨b, h1, h2⟩ := step_one (d := d) (v := v) hp hpc rfl rfl (by
    simp only [Inst.exec, Inst.srcs, Inst.nat, Inst.arg, List.getD_cons_zero, List.getD_cons_succ, Int.toNat_natCast, List.map_cons,
      List.map_nil, Inst.alu, e1, one]) rfl
  refine ⟨b, v, h1, h2, e2.trans hxw, e3, e4, ?_⟩
  rw [Bool.eq_iff_iff, e5]; simp [and_assoc]

/-- **C81 (complement; partial: plaintext widths below 128).** -/
theorem C81_not_partial (prog : Nat → Except Err Inst) (a : Regs) (d x : Nat)
    (hp : prog a.pc = .ok ⟨.not, [(d : Int), (x : Int)]⟩) (hpc : a.pc + 8 < 2 ^ 32) (hx : Reg.Fits (a.reg x))
    (h128 : (a.reg x).isPlain = true → (a.reg x).width < 128) :
    ∃ b v, Seq.step parasol prog a = .ok (b, false) ∧ Sets a b d v ∧
      Carries v (a.reg x).width (2 ^ (a.reg x).width - 1 - Reg.value (a.reg x)) (a.reg x).isPlain := by
  have key : ∃ v, Cpu.not (a.reg x) = .ok v ∧
      Carries v (a.reg x).width (2 ^ (a.reg x).width - 1 - Reg.value (a.reg x)) (a.reg x).isPlain := by
    generalize a.reg x = vx at *
    cases vx with
    | plain v w =>
      refine ⟨_, (C35_not_neg_partial (h128 rfl) hx).1, rfl, ?_, rfl, rfl⟩
      show 2 ^ w - 1 - v < 2 ^ w
      have := Nat.two_pow_pos w; omega
    | cipher bits =>
      obtain ⟨bs, e1, e2, e3⟩ := C36_not bits
      exact ⟨_, e1, e2, trivial, e3, rfl⟩
  obtain ⟨v, e1, e2⟩ := key
  obtain ⟨b, h1, h2⟩ := step_one (d := d) (v := v) hp hpc rfl rfl (by
    simp only [Inst.exec, Inst.srcs, Inst.nat, Inst.arg, List.getD_cons_zero, List.getD_cons_succ, Int.toNat_natCast, List.map_cons,
      List.map_nil, Inst.alu, e1, one]) rfl
  exact ⟨b, v, h1, h2, e2⟩

/-- **C81 (negation; partial: plaintexts only, encrypted registers panic, `C36_neg_violated`).** -/
theorem C81_neg_partial (prog : Nat → Except Err Inst) (a : Regs) (d x n w : Nat)
    (hp : prog a.pc = .ok ⟨.neg, [(d : Int), (x : Int)]⟩) (hpc : a.pc + 8 < 2 ^ 32) (hx : a.reg x = .plain n w) (hn : n < 2 ^ w)
    (h128 : w < 128) :
    ∃ b, Seq.step parasol prog a = .ok (b, false) ∧ Sets a b d (.plain ((2 ^ w - n) % 2 ^ w) w) :=
  step_one hp hpc rfl rfl (by
    simp only [Inst.exec, Inst.srcs, Inst.nat, Inst.arg, List.getD_cons_zero, List.getD_cons_succ, Int.toNat_natCast, List.map_cons,
      List.map_nil, Inst.alu, hx, (C35_not_neg_partial h128 hn).2, one]) rfl

/-- **C81 (move).** -/
theorem C81_move (prog : Nat → Except Err Inst) (a : Regs) (d x : Nat) (hp : prog a.pc = .ok ⟨.move, [(d : Int), (x : Int)]⟩)
    (hpc : a.pc + 8 < 2 ^ 32) : ∃ b, Seq.step parasol prog a = .ok (b, false) ∧ Sets a b d (a.reg x) :=
  step_one hp hpc rfl rfl rfl rfl

/-- **C81 (load immediate; partial: widths up to 32).** An immediate that fits the width, signed or unsigned, is loaded. -/
theorem C81_loadi_partial (prog : Nat → Except Err Inst) (a : Regs) (d imm w : Nat)
    (hp : prog a.pc = .ok ⟨.loadI, [(d : Int), (imm : Int), (w : Int)]⟩) (hpc : a.pc + 8 < 2 ^ 32) (h1 : 1 ≤ w) (h32 : w ≤ 32)
    (hr : imm < 2 ^ w ∨ 2 ^ 32 - 2 ^ (w - 1) ≤ imm) :
    ∃ b, Seq.step parasol prog a = .ok (b, false) ∧ Sets a b d (.plain (imm % 2 ^ w) w) :=
  step_one hp hpc rfl rfl (by
    simp only [Inst.exec, Inst.srcs, Inst.nat, Inst.arg, List.getD_cons_zero, List.getD_cons_succ, Int.toNat_natCast, List.map_nil,
      Inst.alu, (C37_loadi_partial h1 h32).1 hr, one]) rfl

/-- **C81 (zero extension).** -/
theorem C81_zext (prog : Nat → Except Err Inst) (a : Regs) (d x w : Nat)
    (hp : prog a.pc = .ok ⟨.zext, [(d : Int), (x : Int), (w : Int)]⟩) (hpc : a.pc + 8 < 2 ^ 32) (hx : Reg.Fits (a.reg x))
    (hw : (a.reg x).width ≤ w) :
    ∃ b v, Seq.step parasol prog a = .ok (b, false) ∧ Sets a b d v ∧ Carries v w (Reg.value (a.reg x)) (a.reg x).isPlain := by
  obtain ⟨v, e1, e2, e3, e4, e5⟩ := C37_zext hx hw
  obtain ⟨b, h1, h2⟩ := step_one (d := d) (v := v) hp hpc rfl rfl (by
    simp only [Inst.exec, Inst.srcs, Inst.nat, Inst.arg, List.getD_cons_zero, List.getD_cons_succ, Int.toNat_natCast, List.map_cons,
      List.map_nil, Inst.alu, e1, one]) rfl
  exact ⟨b, v, h1, h2, e2, e4, e5, e3⟩

/-- **C81 (sign extension; partial: plaintexts to widths below 128).** -/
theorem C81_sext_partial (prog : Nat → Except Err Inst) (a : Regs) (d x w : Nat)
    (hp : prog a.pc = .ok ⟨.sext, [(d : Int), (x : Int), (w : Int)]⟩) (hpc : a.pc + 8 < 2 ^ 32) (hx : Reg.Fits (a.reg x))
    (h1 : 1 ≤ (a.reg x).width) (hw : (a.reg x).width ≤ w) (h128 : (a.reg x).isPlain = true → w < 128) :
    ∃ b v, Seq.step parasol prog a = .ok (b, false) ∧ Sets a b d v ∧ v.width = w ∧ v.isPlain = (a.reg x).isPlain ∧ Reg.Fits v ∧
      twos w (Reg.value v) = twos (a.reg x).width (Reg.value (a.reg x)) := by
  obtain ⟨v, e1, e2, e3, e4, e5⟩ := C37_sext_partial hx h1 hw h128
  obtain ⟨b, h1, h2⟩ := step_one (d := d) (v := v) hp hpc rfl rfl (by
    simp only [Inst.exec, Inst.srcs, Inst.nat, Inst.arg, List.getD_cons_zero, List.getD_cons_succ, Int.toNat_natCast, List.map_cons,
      List.map_nil, Inst.alu, e1, one]) rfl
  exact ⟨b, v, h1, h2, e2, e3, e4, e5⟩

/-- **C81 (truncation; partial: plaintexts to widths below 128).** -/
theorem C81_trunc_partial (prog : Nat → Except Err Inst) (a : Regs) (d x w : Nat)
    (hp : prog a.pc = .ok ⟨.trunc, [(d : Int), (x : Int), (w : Int)]⟩) (hpc : a.pc + 8 < 2 ^ 32)
    (hw : w ≤ (a.reg x).width) (h128 : (a.reg x).isPlain = true → w < 128) :
    ∃ b v, Seq.step parasol prog a = .ok (b, false) ∧ Sets a b d v ∧ Carries v w (Reg.value (a.reg x) % 2 ^ w) (a.reg x).isPlain := by
  obtain ⟨v, e1, e2, e3, e4, e5⟩ := C37_trunc_partial (a.reg x) hw h128
  obtain ⟨b, h1, h2⟩ := step_one (d := d) (v := v) hp hpc rfl rfl (by
    simp only [Inst.exec, Inst.srcs, Inst.nat, Inst.arg, List.getD_cons_zero, List.getD_cons_succ, Int.toNat_natCast, List.map_cons,
      List.map_nil, Inst.alu, e1, one]) rfl
  exact ⟨b, v, h1, h2, e2, e4, e5, e3⟩

/-- **C81 (shifts and rotations of encrypted registers by plaintext distances up to the width; partial: see
`C36_shift_by_plain_violated` for larger ones).** -/
theorem C81_shift_by_plain_partial (prog : Nat → Except Err Inst) (a : Regs) (o : Op) (f : Sh) (ho : (o, f) ∈ shiftTable) (d x y : Nat)
    (hp : prog a.pc = .ok ⟨o, [(d : Int), (x : Int), (y : Int)]⟩) (hpc : a.pc + 8 < 2 ^ 32) (hx : (a.reg x).isPlain = false)
    (h1 : 1 ≤ (a.reg x).width) (n ws : Nat) (hy : a.reg y = .plain n ws) (hn : n ≤ (a.reg x).width) (h32 : n < 2 ^ 32) :
    ∃ b v, Seq.step parasol prog a = .ok (b, false) ∧ Sets a b d v ∧
      Carries v (a.reg x).width (shMeaning (a.reg x).width (Reg.value (a.reg x)) n f) false := by
  have key : ∃ v, shiftOp f (a.reg x) (a.reg y) = .ok v ∧
      Carries v (a.reg x).width (shMeaning (a.reg x).width (Reg.value (a.reg x)) n f) false := by
    rw [hy]
    generalize a.reg x = vx at *
    cases vx with
    | plain _ _ => simp [Reg.isPlain] at hx
    | cipher c =>
      obtain ⟨bits, e1, e2, e3⟩ := C36_shift_by_plain_partial f c n ws h1 hn h32
      exact ⟨_, e1, e2, trivial, e3, rfl⟩
  obtain ⟨v, hv, hc⟩ := key
  simp only [shiftTable, List.mem_cons, List.not_mem_nil, or_false, Prod.mk.injEq] at ho
  have hs : ∃ b, Seq.step parasol prog a = .ok (b, false) ∧ Sets a b d v := by
    rcases ho with ⟨rfl, rfl⟩ | ⟨rfl, rfl⟩ | ⟨rfl, rfl⟩ | ⟨rfl, rfl⟩ | ⟨rfl, rfl⟩ <;>
    exact step_one hp hpc rfl rfl (by
      simp only [Inst.exec, Inst.srcs, Inst.nat, Inst.arg, List.getD_cons_zero, List.getD_cons_succ, Int.toNat_natCast, List.map_cons,
        List.map_nil, Inst.alu, Op.bin?, Op.sh?, hv, one]) rfl
  obtain ⟨b, h1, h2⟩ := hs
  exact ⟨b, v, h1, h2, hc⟩

/-- **C81 (shifts by encrypted distances; partial: rotations of power-of-two widths, distances with enough bits, at most
`maxVars` circuit inputs).** -/
theorem C81_shift_encrypted_partial (prog : Nat → Except Err Inst) (a : Regs) (o : Op) (f : Sh) (ho : (o, f) ∈ shiftTable) (d x y : Nat)
    (hp : prog a.pc = .ok ⟨o, [(d : Int), (x : Int), (y : Int)]⟩) (hpc : a.pc + 8 < 2 ^ 32) (hx : Reg.Fits (a.reg x))
    (h1 : 1 ≤ (a.reg x).width) (hy : (a.reg y).isPlain = false) (hs : usedShiftBits (a.reg x).width ≤ (a.reg y).width)
    (hv : (a.reg x).width + (a.reg y).width < maxVars) (hrot : f.mode = .rotation → isPow2 (a.reg x).width = true) :
    ∃ b v, Seq.step parasol prog a = .ok (b, false) ∧ Sets a b d v ∧
      Carries v (a.reg x).width (shMeaning (a.reg x).width (Reg.value (a.reg x)) (Reg.value (a.reg y)) f) false := by
  have key : ∃ v, shiftOp f (a.reg x) (a.reg y) = .ok v ∧
      Carries v (a.reg x).width (shMeaning (a.reg x).width (Reg.value (a.reg x)) (Reg.value (a.reg y)) f) false := by
    generalize a.reg y = vy at *
    cases vy with
    | plain _ _ => simp [Reg.isPlain] at hy
    | cipher c =>
      obtain ⟨bits, e1, e2, e3⟩ := C36_shift_encrypted_partial f hx h1 hs hv hrot
      exact ⟨_, e1, e2, trivial, e3, rfl⟩
  obtain ⟨v, hv, hc⟩ := key
  simp only [shiftTable, List.mem_cons, List.not_mem_nil, or_false, Prod.mk.injEq] at ho
  have hs : ∃ b, Seq.step parasol prog a = .ok (b, false) ∧ Sets a b d v := by
    rcases ho with ⟨rfl, rfl⟩ | ⟨rfl, rfl⟩ | ⟨rfl, rfl⟩ | ⟨rfl, rfl⟩ | ⟨rfl, rfl⟩ <;>
    exact step_one hp hpc rfl rfl (by
      simp only [Inst.exec, Inst.srcs, Inst.nat, Inst.arg, List.getD_cons_zero, List.getD_cons_succ, Int.toNat_natCast, List.map_cons,
        List.map_nil, Inst.alu, Op.bin?, Op.sh?, hv, one]) rfl
  obtain ⟨b, h1, h2⟩ := hs
  exact ⟨b, v, h1, h2, hc⟩

/-- **C81 (logical right shift and rotations of plaintexts by up to the width; partial: left and arithmetic shifts do not
produce `w`-bit results, `C35_shl_violated`, `C35_shra_violated`).** -/
theorem C81_shift_plain_partial (prog : Nat → Except Err Inst) (a : Regs) (o : Op) (f : Sh)
    (ho : (o, f) ∈ [(Op.shr, Sh.shr), (.rotr, .rotr), (.rotl, .rotl)]) (d x y n w s ws : Nat)
    (hp : prog a.pc = .ok ⟨o, [(d : Int), (x : Int), (y : Int)]⟩) (hpc : a.pc + 8 < 2 ^ 32) (hx : a.reg x = .plain n w)
    (hy : a.reg y = .plain s ws) (hn : n < 2 ^ w) (hw : w < 128) (hs : s ≤ w) :
    ∃ b, Seq.step parasol prog a = .ok (b, false) ∧ Sets a b d (.plain (shMeaning w n s f) w) := by
  simp only [List.mem_cons, List.not_mem_nil, or_false, Prod.mk.injEq] at ho
  have hv : shiftOp f (a.reg x) (a.reg y) = .ok (.plain (shMeaning w n s f) w) := by
    rw [hx, hy]
    rcases ho with ⟨rfl, rfl⟩ | ⟨rfl, rfl⟩ | ⟨rfl, rfl⟩
    · exact C35_shr_partial (by omega)
    · exact (C35_rotate_partial hw hn hs).1
    · exact (C35_rotate_partial hw hn hs).2
  rcases ho with ⟨rfl, rfl⟩ | ⟨rfl, rfl⟩ | ⟨rfl, rfl⟩ <;>
  exact step_one hp hpc rfl rfl (by
    simp only [Inst.exec, Inst.srcs, Inst.nat, Inst.arg, List.getD_cons_zero, List.getD_cons_succ, Int.toNat_natCast, List.map_cons,
      List.map_nil, Inst.alu, Op.bin?, Op.sh?, hv, one]) rfl

/-- **C81 (branches).** A conditional branch on a plaintext register goes to `pc + offset` (modulo 2³²) when the condition
holds and to the next instruction otherwise; `branch` always jumps; nothing else changes. -/
theorem C81_branch (prog : Nat → Except Err Inst) (a : Regs) (c n w : Nat) (off : Int) (hpc : a.pc + 8 < 2 ^ 32) (hc : a.reg c = .plain n w) :
    (prog a.pc = .ok ⟨.branchNonZero, [(c : Int), off]⟩ →
      Seq.step parasol prog a = .ok ({ a with pc := if n = 0 then a.pc + 8 else (((a.pc : Int) + off) % 2 ^ 32).toNat }, false)) ∧
    (prog a.pc = .ok ⟨.branchZero, [(c : Int), off]⟩ →
      Seq.step parasol prog a = .ok ({ a with pc := if n = 0 then (((a.pc : Int) + off) % 2 ^ 32).toNat else a.pc + 8 }, false)) ∧
    (prog a.pc = .ok ⟨.branch, [off]⟩ →
      Seq.step parasol prog a = .ok ({ a with pc := (((a.pc : Int) + off) % 2 ^ 32).toNat }, false)) := by
  refine ⟨fun hp => ?_, fun hp => ?_, fun hp => ?_⟩ <;>
  simp only [Seq.step, hp, Seq.effect, parasol, Inst.access, Inst.exec, Inst.srcs, Inst.dsts, Inst.nat, Inst.arg, List.getD_cons_zero,
    List.getD_cons_succ, Int.toNat_natCast, List.map_cons, List.map_nil, Inst.alu, Seq.assign, Inst.next, nextPc_ok hpc, hc, jumpPc]
  · by_cases h : n = 0 <;> simp [h]
  · by_cases h : n = 0 <;> simp [h]

/-- **C81 (encrypted conditions are refused).** -/
theorem C81_branch_encrypted (prog : Nat → Except Err Inst) (a : Regs) (c : Nat) (off : Int) (o : Op)
    (ho : o = .branchNonZero ∨ o = .branchZero) (hp : prog a.pc = .ok ⟨o, [(c : Int), off]⟩) (hc : (a.reg c).isPlain = false) :
    Seq.step parasol prog a = .error .branchNotPlaintext := by
  obtain ⟨bits, hb⟩ : ∃ bits, a.reg c = .cipher bits := by
    cases h : a.reg c with
    | plain _ _ => rw [h] at hc; simp [Reg.isPlain] at hc
    | cipher b => exact ⟨b, rfl⟩
  rcases ho with rfl | rfl <;>
  simp only [Seq.step, hp, Seq.effect, parasol, Inst.access, Inst.exec, Inst.srcs, Inst.dsts, Inst.nat, Inst.arg, List.getD_cons_zero,
    Int.toNat_natCast, List.map_cons, List.map_nil, Inst.alu, Inst.next, hb]

/-- **C81 (return).** `ret` ends the program and changes nothing. -/
theorem C81_ret (prog : Nat → Except Err Inst) (a : Regs) (hp : prog a.pc = .ok ⟨.ret, []⟩) :
    Seq.step parasol prog a = .ok (a, true) := by
  simp only [Seq.step, hp, Seq.effect, parasol, Inst.access, Inst.exec, Inst.srcs, Inst.dsts, List.map_nil, Inst.alu, Seq.assign, Inst.next]

theorem span_ok (k p pw base : Nat) (off : Int) (vs : List Reg) (hk : k ∈ [1, 2, 4, 8, 16])
    (hbase : trySignedOffset (p % 2 ^ 32) off = .ok base) (hal : base % k = 0) :
    span (.plain p pw :: vs) (8 * k) off = .ok (List.range' base k) := by
  have hnb : 8 * k / 8 = k := by omega
  have hval : invalidAlignment base k = false := by
    unfold invalidAlignment
    simp at hk
    rcases hk with rfl | rfl | rfl | rfl | rfl <;> simp [hal] <;> decide
  simp only [span, hbase, hnb, hval]; rfl

/-- **C81 (store; partial: distinct registers, encrypted values at least as wide as the access).** `store p, v, 8k, off` puts the
bytes of `v`, least significant first, at `p + off`, and changes nothing else. -/
theorem C81_store_partial (prog : Nat → Except Err Inst) (a : Regs) (r v k p pw base : Nat) (off : Int)
    (hp : prog a.pc = .ok ⟨.store, [(r : Int), (v : Int), ((8 * k : Nat) : Int), off]⟩) (hpc : a.pc + 8 < 2 ^ 32) (hrv : r ≠ v)
    (hk : k ∈ [1, 2, 4, 8, 16]) (hr : a.reg r = .plain p pw) (hbase : trySignedOffset (p % 2 ^ 32) off = .ok base)
    (hal : base % k = 0) (hmap : ∀ j, j < k → a.mem (base + j) ≠ none)
    (hx : (a.reg v).isPlain = false → 8 * k ≤ (a.reg v).width) :
    ∃ b : Regs, Seq.step parasol prog a = .ok (b, false) ∧ b.pc = a.pc + 8 ∧ b.reg = a.reg ∧
      (∀ q, q < base ∨ base + k ≤ q → b.mem q = a.mem q) ∧
      (∀ j, j < k → b.mem (base + j) = some (match a.reg v with
        | .plain x _ => .plain (BitVec.ofNat 8 (x / 2 ^ (8 * j)))
        | .cipher bits => .cipher ((bits.drop (8 * j)).take 8))) := by
  have hsp := span_ok k p pw base off [a.reg v] hk hbase hal
  have hsb : ∀ j, j < k → ∃ y, storeByte (a.reg v) (0 + j) = .ok y := by
    intro j hj
    cases h : a.reg v with
    | plain val w => exact ⟨_, rfl⟩
    | cipher b =>
      have := hx (by rw [h]; rfl)
      rw [h] at this
      simp only [Reg.width] at this
      simp only [storeByte]; rw [if_pos (by omega)]; exact ⟨_, rfl⟩
  obtain ⟨m', hm'⟩ := storeBytes_total k base 0 a.mem hsb hmap
  refine ⟨{ reg := a.reg, mem := m', pc := a.pc + 8 }, ?_, rfl, rfl, ?_, ?_⟩
  · simp only [Seq.step, hp, Seq.effect, parasol, Inst.access, Inst.exec, Inst.srcs, Inst.dsts, Inst.nat, Inst.arg, List.getD_cons_zero,
      List.getD_cons_succ, Int.toNat_natCast, List.map_cons, List.map_nil, hr, hsp, if_neg hrv, hm', Seq.assign, Inst.next, nextPc_ok hpc]
  · intro q hq
    apply storeBytes_frame hm'
    rw [List.mem_range'_1]; omega
  · intro j hj
    obtain ⟨y, h1, h2⟩ := storeBytes_at k base 0 a.mem m' hm' j hj
    show m' (base + j) = _
    rw [h2]
    cases h : a.reg v with
    | plain x w =>
      rw [h] at h1
      simp only [storeByte, Nat.zero_add] at h1
      injection h1 with h1; rw [← h1]
    | cipher b =>
      have hw := hx (by rw [h]; rfl)
      rw [h] at h1 hw
      simp only [Reg.width] at hw
      simp only [storeByte, Nat.zero_add] at h1
      rw [if_pos (by omega)] at h1
      injection h1 with h1; rw [← h1]

/-- **C81 (load).** `load d, p, 8k, off` reads `k` bytes at `p + off`, all plaintext or all encrypted, least significant first;
the memory does not change. -/
theorem C81_load (prog : Nat → Except Err Inst) (a : Regs) (d r k p pw base : Nat) (off : Int)
    (hp : prog a.pc = .ok ⟨.load, [(d : Int), (r : Int), ((8 * k : Nat) : Int), off]⟩) (hpc : a.pc + 8 < 2 ^ 32)
    (hk : k ∈ [1, 2, 4, 8, 16]) (hr : a.reg r = .plain p pw) (hbase : trySignedOffset (p % 2 ^ 32) off = .ok base)
    (hal : base % k = 0) :
    (∀ x, x < 2 ^ (8 * k) → (∀ j, j < k → a.mem (base + j) = some (.plain (BitVec.ofNat 8 (x / 2 ^ (8 * j))))) →
      ∃ b, Seq.step parasol prog a = .ok (b, false) ∧ Sets a b d (.plain x (8 * k))) ∧
    (∀ bits, bits.length = 8 * k → (∀ j, j < k → a.mem (base + j) = some (.cipher ((bits.drop (8 * j)).take 8))) →
      ∃ b, Seq.step parasol prog a = .ok (b, false) ∧ Sets a b d (.cipher bits)) := by
  have hk0 : 0 < k := by simp at hk; omega
  have hsp := span_ok k p pw base off [] hk hbase hal
  have main : ∀ v, loadReg a.mem (8 * k) (List.range' base k) = .ok v → ∃ b, Seq.step parasol prog a = .ok (b, false) ∧ Sets a b d v := by
    intro v hv
    refine ⟨{ reg := fun r => if r = d then v else a.reg r, mem := a.mem, pc := a.pc + 8 }, ?_, rfl, rfl, if_pos rfl, fun r h => if_neg h⟩
    simp only [Seq.step, hp, Seq.effect, parasol, Inst.access, Inst.exec, Inst.srcs, Inst.dsts, Inst.nat, Inst.arg, List.getD_cons_zero,
      List.getD_cons_succ, Int.toNat_natCast, List.map_cons, List.map_nil, hr, hsp, hv, Seq.assign, Inst.next, nextPc_ok hpc]
  refine ⟨fun x hx hm => main _ ?_, fun bits hb hm => main _ ?_⟩
  · rw [loadReg_plain (f := fun j => BitVec.ofNat 8 (x / 2 ^ (8 * j))) (8 * k) k base hk0 hm, bytesVal_digits, Nat.mod_eq_of_lt hx]
  · rw [loadReg_cipher (f := fun j => (bits.drop (8 * j)).take 8) (8 * k) k base hk0 hm, flatMap_slices bits k (by omega),
      List.take_of_length_le (by omega)]

/-! ### a concrete state meeting the hypotheses -/

/-- registers: r1 = 200 (8 bit), r2 = encrypted 100, r3 = encrypted bit 1, r4 = address 4096 -/
def exRegs : Regs := ⟨fun r => if r = 1 then .plain 200 8 else if r = 2 then .cipher (valueBits 100 8) else if r = 3 then .cipher [true]
  else if r = 4 then .plain 4096 32 else .plain 0 32, fun q => if 4096 ≤ q ∧ q < 8192 then some (.plain 0) else none, 0⟩

-- 200 + 100 + 1 = 45 carry 1, encrypted
example : ∃ b, Seq.step parasol (code [⟨.addC, [5, 6, 1, 2, 3]⟩]) exRegs = .ok (b, false) ∧ Carries (b.reg 5) 8 45 false ∧
    Carries (b.reg 6) 1 1 false := by
  obtain ⟨b, h1, _, _, _, h2, h3⟩ := C81_addc_partial (code [⟨.addC, [5, 6, 1, 2, 3]⟩]) exRegs 5 6 1 2 3 (by decide) rfl (by decide) 8 (by decide) (by decide)
    (by show 200 < 2 ^ 8; decide) trivial trivial rfl rfl rfl
  exact ⟨b, h1, h2, h3⟩
-- the encrypted register is stored at 4098
example : trySignedOffset (4096 % 2 ^ 32) 2 = .ok 4098 ∧ (∀ j, j < 1 → exRegs.mem (4098 + j) ≠ none) ∧
    8 * 1 ≤ (exRegs.reg 2).width := by
  refine ⟨by decide, fun j hj => ?_, by decide⟩
  have : j = 0 := by omega
  subst this; decide
example : ∃ b, Seq.step parasol (code [⟨.cmux, [5, 3, 1, 2]⟩]) exRegs = .ok (b, false) ∧ Carries (b.reg 5) 8 200 false := by
  obtain ⟨b, v, h1, ⟨_, _, h2, _⟩, h3⟩ := C81_cmux (code [⟨.cmux, [5, 3, 1, 2]⟩]) exRegs 5 3 1 2 rfl (by decide) 8 (by decide) (by decide)
    trivial (by show 200 < 2 ^ 8; decide) trivial rfl rfl rfl
  exact ⟨b, h1, by rw [h2]; exact h3⟩

/-! ### C82: prices -/

/-- how many source operands an instruction has -/
def operandCount : Op → Nat
  | .loadI | .branch | .ret => 0
  | .load | .trunc | .zext | .sext | .move | .not | .neg | .branchNonZero | .branchZero | .dbg => 1
  | .addC | .subB | .cmux => 3
  | _ => 2

/-- **C82 (plaintext work is cheap).** An instruction none of whose operands is encrypted costs 1 unit, `ret` nothing. -/
theorem C82_plaintext (i : Inst) (vs : List Reg) (h : ∀ v ∈ vs, v.isPlain = true) : i.gas vs = if i.op = .ret then 0 else 1 := by
  have hct : ∀ k, isCt vs k = false := by
    intro k
    unfold isCt
    cases hk : vs[k]? with
    | none => rfl
    | some v => simp [h v (List.mem_of_getElem? hk)]
  unfold Inst.gas
  cases i.op <;> simp [hct]

/-- **C82 (homomorphic work is charged).** Every instruction that hands a circuit to the background costs at least 100000 units;
a multiplication 500000. -/
theorem C82_background (i : Inst) (vs : List Reg) (hl : vs.length = operandCount i.op) (h : i.async vs = true) :
    100000 ≤ i.gas vs ∧ (i.op = .mul → i.gas vs = 500000) := by
  obtain ⟨op, args⟩ := i
  have e0 : ∀ v : Reg, isCt [v] 0 = !v.isPlain := fun v => rfl
  cases op <;> simp only [operandCount] at hl <;> simp only [Inst.async] at h <;>
    first
    | (cases h)
    | (obtain ⟨x, rfl⟩ := List.length_eq_one_iff.1 hl
       cases hx : x.isPlain <;> simp_all [Inst.gas, isCt])
    | (obtain ⟨x, y, rfl⟩ := List.length_eq_two.1 hl
       cases hx : x.isPlain <;> cases hy : y.isPlain <;> simp_all [Inst.gas, isCt])
    | (obtain ⟨x, y, z, rfl⟩ := List.length_eq_three.1 hl
       cases hx : x.isPlain <;> cases hy : y.isPlain <;> cases hz : z.isPlain <;> simp_all [Inst.gas, isCt])

/-- The sources the machine reads match the operand counts above. -/
theorem C82_sources (i : Inst) (a : Regs) : (i.srcs.map a.reg).length = operandCount i.op := by
  rw [List.length_map]
  unfold Inst.srcs operandCount
  cases i.op <;> rfl

/-- **C82 (a run pays for its background work).** If the gas used by the first `n` instructions stays below 100000, none of them
was handed to the background. -/
theorem C82_limit (prog : Nat → Except Err Inst) : ∀ (n : Nat) (a : Regs), gasUsed parasol prog n a < 100000 → NoBackground parasol prog n a
  | 0, _, _ => trivial
  | n + 1, a, h => by
    unfold NoBackground
    unfold gasUsed at h
    cases hp : prog a.pc with
    | error e => trivial
    | ok inst =>
      cases hs : Seq.step parasol prog a with
      | error e => trivial
      | ok q =>
        rw [hp, hs] at h
        dsimp only at h ⊢
        refine ⟨?_, C82_limit prog n q.1 (by omega)⟩
        by_contra hc
        have ha : inst.async (inst.srcs.map a.reg) = true := by
          simpa [parasol] using hc
        have := (C82_background inst _ (C82_sources inst a) ha).1
        have e : parasol.gas inst ((parasol.srcs inst).map a.reg) = inst.gas (inst.srcs.map a.reg) := rfl
        omega

example : (⟨.mul, [5, 1, 2]⟩ : Inst).async [exRegs.reg 1, exRegs.reg 2] = true ∧ (⟨.mul, [5, 1, 2]⟩ : Inst).gas [exRegs.reg 1, exRegs.reg 2] = 500000 ∧
    (⟨.mul, [5, 1, 2]⟩ : Inst).gas [exRegs.reg 2, exRegs.reg 1] = 500000 ∧
    gasUsed parasol (code [⟨.addC, [5, 6, 1, 1, 1]⟩, ⟨.ret, []⟩]) 2 exRegs < 100000 := by
  refine ⟨by decide, by decide, by decide, by decide +kernel⟩

end Spf.Props
