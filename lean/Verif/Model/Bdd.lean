/-!
Meaning of decision diagrams.

`biodivine_lib_bdd::Bdd` is a canonical representation of a Boolean function of the variables of a
`BddVariableSet`.  The circuit generators only use its Boolean algebra (`mk_var`, `mk_true`, `mk_false`, `and`,
`or`, `xor`, `not`, `and_not`, `if_then_else`), so the model represents a diagram by the function it denotes;
that these library operations implement the Boolean connectives is part of the trusted base.
-/
namespace Spf

/-- Meaning of `biodivine_lib_bdd::Bdd` (as used in `mux_circuits/src/*.rs`): a Boolean function of the
assignment of the variables. -/
abbrev BddFn := (Nat → Bool) → Bool

namespace BddFn
/-- `BddVariableSet::mk_var` (used at mux_circuits/src/add.rs:26). -/
def var (i : Nat) : BddFn := fun e => e i
/-- `BddVariableSet::mk_false` (mux_circuits/src/add.rs:32). -/
def mkFalse : BddFn := fun _ => false
/-- `BddVariableSet::mk_true` (mux_circuits/src/comparisons.rs:31). -/
def mkTrue : BddFn := fun _ => true
/-- `Bdd::xor` (mux_circuits/src/add.rs:41). -/
def xor (a b : BddFn) : BddFn := fun e => Bool.xor (a e) (b e)
/-- `Bdd::and` (mux_circuits/src/add.rs:44). -/
def and (a b : BddFn) : BddFn := fun e => a e && b e
/-- `Bdd::or` (mux_circuits/src/add.rs:44). -/
def or (a b : BddFn) : BddFn := fun e => a e || b e
/-- `Bdd::not` (mux_circuits/src/comparisons.rs:6). -/
def not (a : BddFn) : BddFn := fun e => !(a e)
/-- `Bdd::and_not` (mux_circuits/src/comparisons.rs:10). -/
def andNot (a b : BddFn) : BddFn := fun e => a e && !(b e)
/-- `Bdd::if_then_else` (mux_circuits/src/bitshift.rs:132). -/
def ite (c t f : BddFn) : BddFn := fun e => bif c e then t e else f e
end BddFn

/-- `usize as u16` truncation of the number of variables would make later indexing panic
(`BddVariableSet::new_anonymous(in_len as u16)`, mux_circuits/src/add.rs:22), so generators return `none`
when more than `u16::MAX` variables are needed.  (The library's own, slightly smaller, limit on the number of
variables is not modelled.) -/
def maxVars : Nat := 65536

end Spf
