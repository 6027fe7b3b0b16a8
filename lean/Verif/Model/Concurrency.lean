/-! Model of `parasol_concurrency/src/lib.rs`: the atomic cell and the spinlock, as the machines made of their atomic
accesses. Threads are anonymous: a state counts the handles alive. Sequentially consistent interleavings of the atomic
accesses are modelled, not the weaker memory orderings. A handle leaked with `mem::forget` is a handle never dropped. -/
namespace Spf.Conc

/-- `usize` of a 64-bit target. -/
def word : Nat := 2 ^ 64

/-! ## `AtomicRefCell` -/

/-- A cell (lib.rs:19-22) with the threads using it: `state` is the counter; `refs` and `muts` count the live `Ref`s and
`RefMut`s; `undo` counts the threads inside `borrow` between the two counter accesses of lib.rs:76 and lib.rs:83. -/
structure Cell where
  state : Nat
  refs : Nat
  muts : Nat
  undo : Nat
  deriving Repr, DecidableEq

/-- `AtomicRefCell::new`, lib.rs:64-69. -/
def Cell.new : Cell := ⟨1, 0, 0, 0⟩

/-- Outcome of a call. -/
inductive Outcome | granted | panicked | pending
  deriving Repr, DecidableEq

/-- `borrow`, lib.rs:75-91, up to the check of the old counter: `fetch_add` wraps. -/
def Cell.borrow (c : Cell) : Cell × Outcome :=
  let old := c.state
  let c := { c with state := (old + 1) % word }
  if old = 0 then (c, .panicked)
  else if old ≥ (word - 1) / 2 then ({ c with undo := c.undo + 1 }, .pending)
  else ({ c with refs := c.refs + 1 }, .granted)

/-- The `fetch_sub` and panic of lib.rs:82-85. -/
def Cell.giveUp (c : Cell) : Option Cell :=
  if c.undo = 0 then none else some { c with state := (c.state + (word - 1)) % word, undo := c.undo - 1 }

/-- `borrow_mut`, lib.rs:97-113. -/
def Cell.borrowMut (c : Cell) : Cell × Outcome :=
  if c.state = 1 then ({ c with state := 0, muts := c.muts + 1 }, .granted) else (c, .panicked)

/-- `Drop for Ref`, lib.rs:122-126. -/
def Cell.dropRef (c : Cell) : Option Cell :=
  if c.refs = 0 then none else some { c with state := (c.state + (word - 1)) % word, refs := c.refs - 1 }

/-- `Drop for RefMut`, lib.rs:142-146. -/
def Cell.dropMut (c : Cell) : Option Cell :=
  if c.muts = 0 then none else some { c with state := 1, muts := c.muts - 1 }

/-- What threads can do with a cell. -/
inductive CellOp | borrow | giveUp | borrowMut | dropRef | dropMut
  deriving Repr, DecidableEq

/-- One atomic access by some thread; `none` if no thread can make it. -/
def Cell.step (c : Cell) : CellOp → Option (Cell × Outcome)
  | .borrow => some c.borrow
  | .giveUp => c.giveUp.map fun c => (c, .panicked)
  | .borrowMut => some c.borrowMut
  | .dropRef => c.dropRef.map fun c => (c, .granted)
  | .dropMut => c.dropMut.map fun c => (c, .granted)

/-- `Clone for AtomicRefCell`, lib.rs:48-58, on the counter: a fresh one. -/
def Cell.clone (_ : Cell) : Cell := Cell.new

/-! ## `Spinlock` -/

/-- A lock (lib.rs:168-171) and the number of its live handles. -/
structure Lock where
  locked : Bool
  handles : Nat
  deriving Repr, DecidableEq

/-- `Spinlock::new`, lib.rs:178-183. -/
def Lock.new : Lock := ⟨false, 0⟩

/-- `try_lock`, lib.rs:205-215, and one round of the loop of `lock`, lib.rs:190-198. -/
def Lock.tryLock (l : Lock) : Lock × Bool :=
  if l.locked = false then (⟨true, l.handles + 1⟩, true) else (l, false)

/-- `Drop for SpinlockHandle`, lib.rs:235-239 with `unlock`, lib.rs:217-219. -/
def Lock.drop (l : Lock) : Option Lock := if l.handles = 0 then none else some ⟨false, l.handles - 1⟩

/-- `keep_locked`, lib.rs:230-232 (and `mem::forget` of a handle, circuit_processor/mod.rs:247). -/
def Lock.keepLocked (l : Lock) : Option Lock := if l.handles = 0 then none else some ⟨l.locked, l.handles - 1⟩

/-- What threads can do with a lock. -/
inductive LockOp | tryLock | drop | keepLocked
  deriving Repr, DecidableEq

/-- One atomic access by some thread and, for `tryLock`, whether it got the lock. -/
def Lock.step (l : Lock) : LockOp → Option (Lock × Bool)
  | .tryLock => some l.tryLock
  | .drop => l.drop.map fun l => (l, false)
  | .keepLocked => l.keepLocked.map fun l => (l, false)

end Spf.Conc
