import Verif.Spec.Bits
/-! What shifting a bit vector (most significant bit first) by `s` positions means. -/
namespace Spf.Spec

/-- Left shift by `s`: drop the `s` top bits, append zeros. -/
def shlBE (a : List Bool) (s : Nat) : List Bool := a.drop s ++ List.replicate (min s a.length) false
/-- Right shift by `s` with a fill bit. -/
def shrBE (fill : Bool) (a : List Bool) (s : Nat) : List Bool :=
  List.replicate (min s a.length) fill ++ a.take (a.length - s)
/-- Left rotation by `s` (modulo the width). -/
def rotlBE (a : List Bool) (s : Nat) : List Bool := a.drop (s % a.length) ++ a.take (s % a.length)
/-- Right rotation by `s` (modulo the width). -/
def rotrBE (a : List Bool) (s : Nat) : List Bool :=
  a.drop (a.length - s % a.length) ++ a.take (a.length - s % a.length)

end Spf.Spec
