import Verif.Model.Machine
/-! Reference for the processor: one instruction at a time, in program order. It shares only the description of the instruction
set (`Isa`) with the model of the out-of-order machine. -/
namespace Spf.Seq
open Spf.Cpu (Err)
open Spf.Machine (Isa)

/-- The state a programmer sees. -/
structure Arch (V A B : Type) where
  reg : Nat → V
  mem : A → B
  pc : Nat

variable {I V A B : Type}

/-- Write results `k, k+1, …` of `outs` to the destination registers; a later destination wins. -/
def assign (reg : Nat → V) (dflt : V) (outs : List V) : Nat → List Nat → Nat → V
  | _, [] => reg
  | k, d :: ds => assign (fun r => if r = d then outs.getD k dflt else reg r) dflt outs (k + 1) ds

/-- What an instruction does to registers and memory. -/
def effect (isa : Isa I V A B) (inst : I) (a : Arch V A B) : Except Err (Arch V A B) :=
  let vals := (isa.srcs inst).map a.reg
  match isa.access inst vals with
  | .error e => .error e
  | .ok _ => match isa.exec inst vals a.mem with
    | .error e => .error e
    | .ok (outs, mem') => .ok { a with reg := assign a.reg isa.dflt outs 0 (isa.dsts inst), mem := mem' }

/-- One instruction: the new state, and whether the program has returned. -/
def step (isa : Isa I V A B) (prog : Nat → Except Err I) (a : Arch V A B) : Except Err (Arch V A B × Bool) :=
  match prog a.pc with
  | .error e => .error e
  | .ok inst => match effect isa inst a with
    | .error e => .error e
    | .ok b => match isa.next inst a.pc ((isa.srcs inst).map a.reg) with
      | .ok pc' => .ok ({ b with pc := pc' }, false)
      | .error .halt => .ok (b, true)
      | .error e => .error e

/-- The program started in `a` returns after exactly `n` instructions, without an error, in state `b`. -/
def Returns (isa : Isa I V A B) (prog : Nat → Except Err I) : Nat → Arch V A B → Arch V A B → Prop
  | 0, _, _ => False
  | n + 1, a, b => match step isa prog a with
    | .error _ => False
    | .ok (a', true) => n = 0 ∧ b = a'
    | .ok (a', false) => Returns isa prog n a' b

/-- The state after `n` instructions, if the program runs that far. -/
def after (isa : Isa I V A B) (prog : Nat → Except Err I) : Nat → Arch V A B → Option (Arch V A B)
  | 0, a => some a
  | n + 1, a => match step isa prog a with
    | .ok (a', false) => after isa prog n a'
    | _ => none

/-- Gas of the first `n` instructions, each charged for the contents its sources have in program order. -/
def gasUsed (isa : Isa I V A B) (prog : Nat → Except Err I) : Nat → Arch V A B → Nat
  | 0, _ => 0
  | n + 1, a => match prog a.pc, step isa prog a with
    | .ok inst, .ok (a', _) => isa.gas inst ((isa.srcs inst).map a.reg) + gasUsed isa prog n a'
    | _, _ => 0

/-! ### Which results may be late
A register is *slow* when its contents come from a computation that may still be running in the background when the next
instruction is fetched: one that the processor hands to the background, or one that has to wait for a slow register or for an
earlier slow access of the same address. -/

/-- Slow registers and addresses. -/
structure Slow (A : Type) where
  reg : Nat → Bool
  mem : A → Bool

/-- Nothing is slow: the state in which a program starts. -/
def Slow.none : Slow A := ⟨fun _ => false, fun _ => false⟩

/-- Whether this instruction is slow. -/
def slowInst (isa : Isa I V A B) (inst : I) (a : Arch V A B) (w : Slow A) : Bool :=
  let vals := (isa.srcs inst).map a.reg
  isa.async inst vals || (isa.srcs inst).any w.reg ||
    (match isa.access inst vals with | .ok l => l.any w.mem | .error _ => false)

/-- Marks after an instruction. -/
def slowStep [DecidableEq A] (isa : Isa I V A B) (inst : I) (a : Arch V A B) (w : Slow A) : Slow A :=
  let vals := (isa.srcs inst).map a.reg
  let late := slowInst isa inst a w
  { reg := fun r => if r ∈ isa.dsts inst then late else w.reg r
    mem := fun x => match isa.access inst vals with
      | .ok l => if x ∈ l then late else w.mem x
      | .error _ => w.mem x }

/-- In the first `n` instructions, none of the first `key inst` sources (the address of a load or store, the condition of a
branch) is slow when the instruction is fetched. -/
def Steady [DecidableEq A] (isa : Isa I V A B) (prog : Nat → Except Err I) (key : I → Nat) : Nat → Arch V A B → Slow A → Prop
  | 0, _, _ => True
  | n + 1, a, w => match prog a.pc, step isa prog a with
    | .ok inst, .ok (a', _) =>
      (∀ r ∈ (isa.srcs inst).take (key inst), w.reg r = false) ∧ Steady isa prog key n a' (slowStep isa inst a w)
    | _, _ => True

/-- In the first `n` instructions nothing is handed to the background. -/
def NoBackground (isa : Isa I V A B) (prog : Nat → Except Err I) : Nat → Arch V A B → Prop
  | 0, _ => True
  | n + 1, a => match prog a.pc, step isa prog a with
    | .ok inst, .ok (a', _) => isa.async inst ((isa.srcs inst).map a.reg) = false ∧ NoBackground isa prog n a'
    | _, _ => True

/-- What the machine relies on about an instruction set: the addresses and the successor of an instruction depend only on its
first `key inst` sources; the result depends on the memory only at those addresses, and only those change. -/
structure Local (isa : Isa I V A B) (key : I → Nat) : Prop where
  access_key : ∀ inst vs vs', vs.take (key inst) = vs'.take (key inst) → isa.access inst vs = isa.access inst vs'
  next_key : ∀ inst pc vs vs', vs.take (key inst) = vs'.take (key inst) → isa.next inst pc vs = isa.next inst pc vs'
  exec_error : ∀ inst vs l m m' e, isa.access inst vs = .ok l → (∀ a ∈ l, m a = m' a) →
    isa.exec inst vs m = .error e → isa.exec inst vs m' = .error e
  exec_ok : ∀ inst vs l m m' o n, isa.access inst vs = .ok l → (∀ a ∈ l, m a = m' a) →
    isa.exec inst vs m = .ok (o, n) → ∃ n', isa.exec inst vs m' = .ok (o, n') ∧ ∀ a ∈ l, n a = n' a
  exec_frame : ∀ inst vs l m o n a, isa.access inst vs = .ok l → isa.exec inst vs m = .ok (o, n) → a ∉ l → n a = m a

end Spf.Seq
