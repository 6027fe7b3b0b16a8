import Verif.Props.FluentProg
import Verif.Proof.SchedEval
/-! C73 is violated: programs that type-check in Rust, on which the library panics or builds a circuit that computes
something else than the program says. -/
namespace Spf.Props
open Spf.Spec Spf.Fhe Spf.Fluent Graph

/-- **C73 (violated: the library panics).** The one-call program that creates an encrypted constant of the kind "GLEV"
means a bit, but the call panics. -/
theorem C73_panics_violated (lib : BddLib) (deg : Nat) (env : Nat → Int) (b : Bool) :
    meaning env [.constBit .glev1 b] [] = some [.bit b] ∧ exec lib deg [.constBit .glev1 b] Ctx.new [] = none := by
  refine ⟨rfl, ?_⟩
  obtain ⟨h1, h2⟩ := C71_violated.1 _ ctxOk_new
  simp only [exec, execI]
  rw [h1, h2]
  cases b <;> rfl

/-- Read the signed 4-bit input 0 and resize it to 2 bits. -/
def exShrink : List Instr := [.input .signed .ggsw1 0 [0, 1, 2, 3], .resize 0 2]

/-- **C73 (violated: a wrong result).** The program that resizes the 4-bit input `-8` to 2 bits means `0`, the low bits of
`-8`; the circuit that the library builds yields `-2`, and not `0`, on every encryption of that input. -/
theorem C73_value_violated (lib : BddLib) (deg : Nat) (cells : CtType → Nat → Val) (env : Nat → Int) (h0 : env 0 = -8)
    (hin : InputsOk cells env exShrink) :
    ∃ ctx a b, exec lib deg exShrink Ctx.new [] = some (ctx, [a, b]) ∧
      meaning env exShrink [] = some [.int .signed 4 (-8), .int .signed 2 0] ∧
      Decrypts deg cells ctx.circuit (.int .signed .ggsw1 4) a (.int .signed 4 (-8)) ∧
      Decrypts deg cells ctx.circuit (.int .signed .ggsw1 2) b (.int .signed 2 (-2)) ∧
      ¬ Decrypts deg cells ctx.circuit (.int .signed .ggsw1 2) b (.int .signed 2 0) := by
  obtain ⟨bits, hb, hv⟩ := hin (.input .signed .ggsw1 0 [0, 1, 2, 3]) (by simp [exShrink])
  have hl : bits = [false, false, false, true] := by
    cases hb with
    | cons _ hb => cases hb with
      | cons _ hb => cases hb with
        | cons _ hb => cases hb with
          | cons _ hb =>
            cases hb
            rw [h0] at hv
            rename_i a _ b _ c _ d _
            revert hv
            cases a <;> cases b <;> cases c <;> cases d <;> decide
  subst hl
  have hc0 : cells .ggsw1 0 = ctOf .ggsw1 false := by cases hb with | cons h _ => exact h
  have hc1 : cells .ggsw1 1 = ctOf .ggsw1 false := by cases hb with | cons _ hb => cases hb with | cons h _ => exact h
  have hc2 : cells .ggsw1 2 = ctOf .ggsw1 false := by
    cases hb with | cons _ hb => cases hb with | cons _ hb => cases hb with | cons h _ => exact h
  have hc3 : cells .ggsw1 3 = ctOf .ggsw1 true := by
    cases hb with | cons _ hb => cases hb with | cons _ hb => cases hb with | cons _ hb => cases hb with | cons h _ => exact h
  have ev : ∀ (n c : Nat) (b : Bool), (⟨[some (.input .ggsw1 0), some (.input .ggsw1 1), some (.input .ggsw1 2), some (.input .ggsw1 3)], []⟩ : FGraph).weight n = some (.input .ggsw1 c) → cells .ggsw1 c = ctOf .ggsw1 b →
      FEval deg cells ⟨[some (.input .ggsw1 0), some (.input .ggsw1 1), some (.input .ggsw1 2), some (.input .ggsw1 3)], []⟩ n (ctOf .ggsw1 b) := by
    intro n c b hw hc
    refine .op (fun _ => .lwe0 false) hw (by intro e he; cases he) ?_
    rw [← hc]
    rfl
  have e0 := ev 0 0 false rfl hc0
  have e1 := ev 1 1 false rfl hc1
  have e2 := ev 2 2 false rfl hc2
  have e3 := ev 3 3 true rfl hc3
  refine ⟨⟨⟨[some (.input .ggsw1 0), some (.input .ggsw1 1), some (.input .ggsw1 2), some (.input .ggsw1 3)], []⟩, Ctx.new.zeroCache, Ctx.new.oneCache⟩,
    .int .signed .ggsw1 [0, 1, 2, 3], .int .signed .ggsw1 [0, 3], rfl, ?_, ?_, ?_, ?_⟩
  · simp only [exShrink, meaning, meanI, h0]; rfl
  · exact ⟨rfl, rfl, rfl, rfl, _, .cons e0 (.cons e1 (.cons e2 (.cons e3 .nil))), rfl, by decide⟩
  · exact ⟨rfl, rfl, rfl, rfl, [false, true], .cons e0 (.cons e3 .nil), rfl, by decide⟩
  · rintro ⟨_, _, _, _, bs, hbs, _, hval⟩
    have : bs = [false, true] := by
      cases hbs with
      | cons h hbs => cases hbs with
        | cons h' hbs =>
          cases hbs
          have i1 := Sched.FEval.unique h e0
          have i2 := Sched.FEval.unique h' e3
          simp only [ctOf, Val.ggsw1.injEq] at i1 i2
          rw [i1, i2]
    subst this
    revert hval
    decide

/-- cells holding the encryption of the bits of `-8` -/
example (lib : BddLib) : ∃ ctx a b, exec lib 8 exShrink Ctx.new [] = some (ctx, [a, b]) ∧
    ¬ Decrypts 8 (fun t c => ctOf t (c == 3)) ctx.circuit (.int .signed .ggsw1 2) b (.int .signed 2 0) := by
  obtain ⟨ctx, a, b, h1, _, _, _, h2⟩ := C73_value_violated lib 8 (fun t c => ctOf t (c == 3)) (fun _ => -8) rfl (by
    intro i hi
    simp only [exShrink, List.mem_cons, List.not_mem_nil, or_false] at hi
    rcases hi with rfl | rfl
    · exact ⟨[false, false, false, true], .cons rfl (.cons rfl (.cons rfl (.cons rfl .nil))), by decide⟩
    · trivial)
  exact ⟨ctx, a, b, h1, h2⟩

/-- Compare a signed 2-bit input with a signed 3-bit input: is the first greater? -/
def exCompare (mode : MuxMode) : List Instr :=
  [.input .signed .ggsw1 0 [0, 1], .input .signed .ggsw1 1 [2, 3, 4], .cmp true false 0 1 mode]

/-- **C73 (violated: a wrong comparison).** The program that asks whether the 2-bit input `-1` is greater than the 3-bit
input `0` means "no"; the circuit that the library builds yields "yes" on every encryption of those inputs. -/
theorem C73_compare_violated {lib : BddLib} (hlib : BddLibOk lib) (deg : Nat) (mode : MuxMode) (cells : CtType → Nat → Val) (env : Nat → Int)
    (h0 : env 0 = -1) (h1 : env 1 = 0) (hin : InputsOk cells env (exCompare mode)) :
    ∃ ctx hs c, exec lib deg (exCompare mode) Ctx.new [] = some (ctx, hs) ∧ hs[2]? = some c ∧
      meaning env (exCompare mode) [] = some [.int .signed 2 (-1), .int .signed 3 0, .bit false] ∧
      Decrypts deg cells ctx.circuit (.bit (modeType mode)) c (.bit true) ∧
      ¬ Decrypts deg cells ctx.circuit (.bit (modeType mode)) c (.bit false) := by
  obtain ⟨b0, hb0, hv0⟩ := hin (.input .signed .ggsw1 0 [0, 1]) (by simp [exCompare])
  obtain ⟨b1, hb1, hv1⟩ := hin (.input .signed .ggsw1 1 [2, 3, 4]) (by simp [exCompare])
  have hl0 : b0 = [true, true] := by
    cases hb0 with
    | cons _ hb => cases hb with
      | cons _ hb =>
        cases hb
        rw [h0] at hv0
        rename_i a _ b _
        revert hv0
        cases a <;> cases b <;> decide
  have hl1 : b1 = [false, false, false] := by
    cases hb1 with
    | cons _ hb => cases hb with
      | cons _ hb => cases hb with
        | cons _ hb =>
          cases hb
          rw [h1] at hv1
          rename_i a _ b _ c _
          revert hv1
          cases a <;> cases b <;> cases c <;> decide
  subst hl0 hl1
  let g : FGraph := ⟨[some (.input .ggsw1 0), some (.input .ggsw1 1), some (.input .ggsw1 2), some (.input .ggsw1 3), some (.input .ggsw1 4)], []⟩
  have hc0 : cells .ggsw1 0 = ctOf .ggsw1 true := by cases hb0 with | cons h _ => exact h
  have hc1 : cells .ggsw1 1 = ctOf .ggsw1 true := by cases hb0 with | cons _ hb => cases hb with | cons h _ => exact h
  have hc2 : cells .ggsw1 2 = ctOf .ggsw1 false := by cases hb1 with | cons h _ => exact h
  have hc3 : cells .ggsw1 3 = ctOf .ggsw1 false := by cases hb1 with | cons _ hb => cases hb with | cons h _ => exact h
  have hc4 : cells .ggsw1 4 = ctOf .ggsw1 false := by
    cases hb1 with | cons _ hb => cases hb with | cons _ hb => cases hb with | cons h _ => exact h
  have ev : ∀ (n c : Nat) (b : Bool), g.weight n = some (.input .ggsw1 c) → cells .ggsw1 c = ctOf .ggsw1 b →
      FEval deg cells g n (ctOf .ggsw1 b) := by
    intro n c b hw hc
    refine .op (fun _ => .lwe0 false) hw (by intro e he; cases he) ?_
    rw [← hc]
    rfl
  have e0 := ev 0 0 true rfl hc0
  have e1 := ev 1 1 true rfl hc1
  have e2 := ev 2 2 false rfl hc2
  have e3 := ev 3 3 false rfl hc3
  have e4 := ev 4 4 false rfl hc4
  have hlive : Live g := by intro e he; cases he
  have hn0 : AreNodes g .ggsw1 [0, 1] := by
    intro n hn
    simp only [List.mem_cons, List.not_mem_nil, or_false] at hn
    rcases hn with rfl | rfl
    · exact ⟨_, rfl, rfl⟩
    · exact ⟨_, rfl, rfl⟩
  have hn1 : AreNodes g .ggsw1 [2, 3, 4] := by
    intro n hn
    simp only [List.mem_cons, List.not_mem_nil, or_false] at hn
    rcases hn with rfl | rfl | rfl
    · exact ⟨_, rfl, rfl⟩
    · exact ⟨_, rfl, rfl⟩
    · exact ⟨_, rfl, rfl⟩
  obtain ⟨f, hf, hs⟩ := C07_signed_compare [true, true, false] [false, false, false] true false rfl (by decide) (by decide)
  obtain ⟨g', r, i1, _, _, i4⟩ := insertCmp_ok (d := deg) (io := fun _ _ => True) hlib hlive (a := [0, 1]) (b := [2, 3, 4]) hn0 hn1
    (gen := fun n => genCompare .signed n true false) hf mode
  have hr := i4 deg cells [true, true] [false, false, false] (.cons e0 (.cons e1 .nil)) (.cons e2 (.cons e3 (.cons e4 .nil)))
  have hb : f (wires (interleave [true, true, false] [false, false, false])) = true :=
    hs.2 (by show valSigned [true, true, false] > valSigned [false, false, false]; decide)
  rw [show interleave (padTo (max [false, false, false].length [true, true].length) [true, true])
      (padTo (max [false, false, false].length [true, true].length) [false, false, false]) =
      interleave [true, true, false] [false, false, false] from rfl, hb] at hr
  refine ⟨⟨g', Ctx.new.zeroCache, Ctx.new.oneCache⟩, [.int .signed .ggsw1 [0, 1], .int .signed .ggsw1 [2, 3, 4], .bit (outType mode) r],
    .bit (outType mode) r, ?_, rfl, ?_, ⟨(outType_eq mode), hr⟩, ?_⟩
  · have : cmp lib .signed true false [0, 1] [2, 3, 4] mode g = some (g', r) := i1
    show (match liftBit ⟨g, Ctx.new.zeroCache, Ctx.new.oneCache⟩ (outType mode) (cmp lib .signed true false [0, 1] [2, 3, 4] mode g) with
      | none => none
      | some (ctx, h) => some (ctx, [Handle.int .signed .ggsw1 [0, 1], Handle.int .signed .ggsw1 [2, 3, 4]] ++ [h])) = _
    rw [this]
    rfl
  · simp only [exCompare, meaning, meanI, h0, h1]; rfl
  · rintro ⟨_, h⟩
    have := Sched.FEval.unique h hr
    cases mode with
    | glev => simp [ctOf, modeType] at this
    | glwe =>
      simp only [ctOf, modeType, Val.glwe1.injEq] at this
      exact absurd (congrFun this 0) (by decide)

example (mode : MuxMode) : ∃ ctx hs c, exec shannonLib 8 (exCompare mode) Ctx.new [] = some (ctx, hs) ∧ hs[2]? = some c ∧
    ¬ Decrypts 8 (fun t c => ctOf t (decide (c < 2))) ctx.circuit (.bit (modeType mode)) c (.bit false) := by
  obtain ⟨ctx, hs, c, h1, h2, _, _, h3⟩ := C73_compare_violated bddLibOk_shannon 8 mode (fun t c => ctOf t (decide (c < 2)))
    (fun x => if x = 0 then -1 else 0) rfl rfl (by
    intro i hi
    simp only [exCompare, List.mem_cons, List.not_mem_nil, or_false] at hi
    rcases hi with rfl | rfl | rfl
    · exact ⟨[true, true], .cons rfl (.cons rfl .nil), by decide⟩
    · exact ⟨[false, false, false], .cons rfl (.cons rfl (.cons rfl .nil)), by decide⟩
    · trivial)
  exact ⟨ctx, hs, c, h1, h2, h3⟩

end Spf.Props
