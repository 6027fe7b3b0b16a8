import Verif.Model.Alu
import Verif.Spec.Bits
/-! Specification of fixed-width arithmetic: what each instruction should compute on `w`-bit numbers. Only the names of the
instructions and the register type are taken from the model. -/
namespace Spf.Spec
open Spf.Cpu

/-- the number a register holds (for an encrypted register: after decryption) -/
def Reg.value : Reg → Nat
  | .plain v _ => v
  | .cipher b => valLE b

/-- a register of width `w` holds a `w`-bit number -/
def Reg.Fits : Reg → Prop
  | .plain v w => v < 2 ^ w
  | .cipher _ => True

/-- two's complement reading of a `w`-bit number -/
def twos (w x : Nat) : Int := if x < 2 ^ (w - 1) then (x : Int) else (x : Int) - 2 ^ w

/-- the comparison each comparison instruction decides -/
def cmpHolds (w x y : Nat) : Cmp → Prop
  | .eq => x = y
  | .gt => y < x
  | .ge => y ≤ x
  | .lt => x < y
  | .le => x ≤ y
  | .gts => twos w y < twos w x
  | .ges => twos w y ≤ twos w x
  | .lts => twos w x < twos w y
  | .les => twos w x ≤ twos w y

open Classical in
/-- the `w`-bit result of a two-operand instruction -/
noncomputable def binMeaning (w x y : Nat) : Bin → Nat
  | .add => (x + y) % 2 ^ w
  | .sub => (x + 2 ^ w - y) % 2 ^ w
  | .mul => (x * y) % 2 ^ w
  | .and => x &&& y
  | .or => x ||| y
  | .xor => x ^^^ y
  | .cmp c => if cmpHolds w x y c then 1 else 0

/-- width of the result -/
def binWidth (w : Nat) : Bin → Nat
  | .cmp _ => 1
  | _ => w

/-- the `w`-bit result of shifting or rotating `x` by `s` -/
def shMeaning (w x s : Nat) : Sh → Nat
  | .shr => x / 2 ^ s
  | .shl => x * 2 ^ s % 2 ^ w
  | .shra => (twos w x / 2 ^ s % 2 ^ w).toNat
  | .rotr => x / 2 ^ (s % w) + x % 2 ^ (s % w) * 2 ^ (w - s % w)
  | .rotl => x * 2 ^ (s % w) % 2 ^ w + x / 2 ^ (w - s % w)

end Spf.Spec
