import Verif.Props.RunProgram
import Verif.Props.Call
/-! C108, the state a called program finds: entry point, stack pointer, return pointer, typed arguments in the frame. -/
namespace Spf.Props
open Spf.Cpu hiding fetchInst
open Spf.CtCpu

/-- **C108, the state the program starts in.** For typed arguments of any kind (of alignment dividing 16) and a return type, on an aligned stack with room for the frame: the program starts at its address `pc`, X2 points to the
frame, X10 to the place of the return value (aligned for its type), every other register is 0, and each argument's bytes are in memory at an address aligned for its type, in order, without overlap, below the place of the return value. -/
theorem C108_frame {α V : Type} (plain : Nat → Nat → V) (m : Mem α) (args : List ((t : Ty) × t.Val α)) (t : Ty) (pc : Nat)
    (hargs : ∀ x ∈ args, 0 < x.1.alignment ∧ x.1.alignment ∣ 16) (hret : 0 < t.alignment ∧ t.alignment ∣ 16)
    (h0 : 0 < m.sp) (hsp : m.sp < 2 ^ 32) (h16 : m.sp % 16 = 0)
    (hfit : (callOf (args.map fun x => toArg x.1 x.2) t).allocSize ≤ m.sp)
    (hmap : ∀ q, m.sp - (callOf (args.map fun x => toArg x.1 x.2) t).allocSize ≤ q → q < m.sp → ∃ x, m.load q = .ok x) :
    ∃ (m' : Mem α) (r : Nat) (addrs : List Nat), setUpCall m (callOf (args.map fun x => toArg x.1 x.2) t) = (m', .ok r) ∧
      (callState plain m' r pc).pc = pc ∧ (callState plain m' r pc).reg 2 = plain m'.sp 32 ∧ (callState plain m' r pc).reg 10 = plain r 32 ∧
      (∀ k, k ≠ 2 → k ≠ 10 → (callState plain m' r pc).reg k = plain 0 32) ∧ m'.sp ≤ m.sp ∧ m'.sp % 16 = 0 ∧ addrs.length = args.length ∧
      (∀ (i : Nat) (hi : i < args.length) (hi' : i < addrs.length),
        addrs[i] % (args[i]).1.alignment = 0 ∧ m'.sp ≤ addrs[i] ∧
        (∀ (k : Nat) (hk : k < ((args[i]).1.toBytes (args[i]).2).length), (callState plain m' r pc).mem (addrs[i] + k) = some ((args[i]).1.toBytes (args[i]).2)[k]) ∧
        (∀ (j : Nat) (hj' : j < addrs.length), i < j → addrs[i] + ((args[i]).1.toBytes (args[i]).2).length ≤ addrs[j]) ∧
        (t.size > 0 → addrs[i] + ((args[i]).1.toBytes (args[i]).2).length ≤ r)) ∧
      (t.size > 0 → r % t.alignment = 0 ∧ m'.sp ≤ r ∧ r + t.size ≤ m.sp) := by
  have ha' : ∀ a ∈ (callOf (args.map fun x => toArg x.1 x.2) t).args, 0 < a.alignment ∧ a.alignment ∣ 16 := by
    intro a ha
    obtain ⟨x, hx, rfl⟩ := List.mem_map.1 (show a ∈ args.map fun x => toArg x.1 x.2 from ha)
    exact hargs x hx
  have hr' : (callOf (args.map fun x => toArg x.1 x.2) t).retSize > 0 →
      0 < (callOf (args.map fun x => toArg x.1 x.2) t).retAlign ∧ (callOf (args.map fun x => toArg x.1 x.2) t).retAlign ∣ 16 := fun _ => hret
  obtain ⟨m', r, addrs, e1, e2, e3, e4, e5, e6, e7, e8⟩ := C33_call_layout_partial m _ ha' hr' h0 hsp h16 hfit hmap
  have hsp' : m'.sp ≤ m.sp := by rw [e2]; exact Nat.sub_le _ _
  refine ⟨m', r, addrs, e1, rfl, rfl, rfl, fun k h2 h10 => ?_, hsp', e3, ?_, fun i hi hi' => ?_, e6⟩
  · show callReg plain m'.sp r k = _
    rw [callReg, if_neg h2, if_neg h10]
  · rw [e4]; simp [callOf]
  · have hi2 : i < (callOf (args.map fun x => toArg x.1 x.2) t).args.length := by simpa [callOf] using hi
    have ea : (callOf (args.map fun x => toArg x.1 x.2) t).args[i] = toArg (args[i]).1 (args[i]).2 := by simp [callOf]
    obtain ⟨g1, g2, g3, g4, g5, g6⟩ := e5 i hi2 hi'
    rw [ea] at g1
    refine ⟨g1, g2, fun k hk => ?_, fun j hj hij => ?_, fun ht => ?_⟩
    · show viewOf m' (addrs[i] + k) = _
      have hk' : k < (callOf (args.map fun x => toArg x.1 x.2) t).args[i].bytes.length := by rw [ea]; exact hk
      have := g4 k hk'
      unfold viewOf
      rw [this]
      simp [callOf, toArg]
    · have := g5 j hj hij
      rw [ea] at this; exact this
    · have := g6 ht
      rw [ea] at this; exact this

/-- non-vacuity: an 8-bit, a 32-bit encrypted and an 8-bit argument, a 16-bit return value, called at 4096: the arguments are at 8160, 8164 and 8168, the return value at 8170. -/
example : (setUpCall (stackMem 8176) (callOf [toArg (.enc 8) (List.replicate 8 true), toArg (.enc 32) (List.replicate 32 false), toArg (.enc 8) (List.replicate 8 true)] (.enc 16))).2 = .ok 8170 ∧
    (callState Reg.plain (setUpCall (stackMem 8176) (callOf [toArg (.enc 8) (List.replicate 8 true), toArg (.enc 32) (List.replicate 32 false), toArg (.enc 8) (List.replicate 8 true)] (.enc 16))).1 8170 4096).pc = 4096 := by
  constructor
  · decide +kernel
  · rfl

end Spf.Props
