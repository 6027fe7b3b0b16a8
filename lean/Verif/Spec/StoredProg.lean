import Verif.Spec.Machine
/-! Reference for programs kept in memory: one instruction at a time, each read from the memory when its turn comes. -/
namespace Spf.Seq
open Spf.Cpu (Err)
open Spf.Machine (Isa)
variable {I V A B : Type}

/-- As `Returns`; `fetch m pc` is the instruction at `pc` in the memory `m`. -/
def StoredReturns (isa : Isa I V A B) (fetch : (A → B) → Nat → Except Err I) : Nat → Arch V A B → Arch V A B → Prop
  | 0, _, _ => False
  | n + 1, a, b => match step isa (fetch a.mem) a with
    | .error _ => False
    | .ok (a', true) => n = 0 ∧ b = a'
    | .ok (a', false) => StoredReturns isa fetch n a' b

/-- The first `n` instructions, whose bytes are at `bytes pc`, lie in the region `code`, and none of them changes the memory there. -/
def KeepsCode (isa : Isa I V A B) (fetch : (A → B) → Nat → Except Err I) (bytes : Nat → List A) (code : A → Prop) : Nat → Arch V A B → Prop
  | 0, _ => True
  | n + 1, a => (∀ x ∈ bytes a.pc, code x) ∧ match step isa (fetch a.mem) a with
    | .error _ => True
    | .ok (a', _) => (∀ x, code x → a'.mem x = a.mem x) ∧ KeepsCode isa fetch bytes code n a'

/-- The first `n` instructions, each read from the memory when its turn comes, all satisfy `Q`. -/
def OnlyRuns (isa : Isa I V A B) (fetch : (A → B) → Nat → Except Err I) (Q : I → Prop) : Nat → Arch V A B → Prop
  | 0, _ => True
  | n + 1, a => (∀ i, fetch a.mem a.pc = .ok i → Q i) ∧ match step isa (fetch a.mem) a with
    | .ok (a', false) => OnlyRuns isa fetch Q n a'
    | _ => True

end Spf.Seq
