import Verif.Model.FheGraph
/-! Model of the circuit processor (`parasol_runtime/src/circuit_processor/mod.rs`, `completion_handler.rs`): one thread
dispatches the operations of a sequence of circuits, any number of pool threads run them. The dispatcher and each task are
sequential programs over shared memory; a state says how far each has got, and a schedule is any sequence of their steps.

Simplifications. A step is one access to shared memory, except that the dispatcher's critical section on the dependents of a
task (mod.rs:170-173) is one step, and that the execution of an operator is one step. Interleavings are sequentially
consistent. Freeing of buffers is not modelled. Panics of operators are not modelled. The dispatching thread is not one of
the pool's threads. -/
namespace Spf.Sched

/-- A total map with one entry changed. -/
def upd {α : Type} (f : Nat → α) (i : Nat) (v : α) : Nat → α := fun j => if j = i then v else f j

/-- What operators do (`exec_op`, mod.rs:255-546): from the contents of the shared cells and the inputs (`none` = not
produced), the operator's output, if any, and the cell it writes, if any, or an error. -/
abbrev Exec (Op Val Err Cell E : Type) :=
  Op → (Cell → Val) → List (Option Val × E) → Except Err (Option Val × Option (Cell × Val))

/-- One call of `dispatch` (mod.rs:129-135): the circuit (its completion handler), the operator (`none` for the final
`Retire`) and the dependencies, as the numbers of earlier calls. `pre` is an error that `spawn_graph` stores just before
(mod.rs:609-611). -/
structure Item (Op Err E : Type) where
  circ : Nat
  op : Option Op
  deps : List (Nat × E)
  pre : Option Err

/-- How far a task has got: not dispatched; waiting for dependencies; handed to the pool; picked up by a thread (mod.rs:210);
error flag found clear (mod.rs:218); operator failed (mod.rs:219); about to lock its dependents (mod.rs:237); notifying them
(mod.rs:241); about to return the flow-control token (mod.rs:251); about to retire (mod.rs:252); finished. -/
inductive Phase (Err : Type) | absent | blocked | ready | started | exec | fail (e : Err) | lock | notify | send | retire | done
  deriving Repr, DecidableEq

/-- How far the dispatcher has got with the item `pc`: about to store `pre`; waiting for a token (mod.rs:138); holding one
(mod.rs:141-161); registering with the remaining dependencies (mod.rs:167-178). -/
inductive DPhase (E : Type) | pre | recv | count | link (rest : List (Nat × E))
  deriving Repr, DecidableEq

/-- The shared memory and the program counters. -/
structure State (Val Err Cell E : Type) where
  pc : Nat
  dp : DPhase E
  /-- messages in the flow-control channel -/
  tokens : Nat
  /-- `ops_remaining` of each circuit's completion handler -/
  remaining : Nat → Nat
  /-- `error` of each circuit's completion handler -/
  error : Nat → Option Err
  /-- invocations of each circuit's callback, newest first (ghost) -/
  fired : Nat → List (Option Err)
  /-- `num_deps` of each task -/
  numDeps : Nat → Nat
  phase : Nat → Phase Err
  /-- the vector `dependents` of each task, last element first -/
  waiters : Nat → List Nat
  /-- the spinlock around it -/
  locked : Nat → Bool
  out : Nat → Option Val
  cells : Cell → Val
  /-- tasks occupying a pool thread -/
  running : List Nat
  /-- how often each task's operator was executed (ghost) -/
  runs : Nat → Nat

variable {Op Val Err Cell E : Type} [DecidableEq Cell]

/-- `CircuitProcessor::new`, mod.rs:83-121 (tokens), and `CompletionHandler::new`, completion_handler.rs:21-30. -/
def init (flow : Nat) (cells : Cell → Val) : State Val Err Cell E :=
  ⟨0, .pre, flow, fun _ => 1, fun _ => none, fun _ => [], fun _ => 0, fun _ => .absent, fun _ => [], fun _ => false,
   fun _ => none, cells, [], fun _ => 0⟩

/-- `OnceLock::set` of the circuit's error, ignoring a second one (mod.rs:219-223, 610). -/
def setError (error : Nat → Option Err) (c : Nat) (e : Err) : Nat → Option Err :=
  match error c with
  | some _ => error
  | none => upd error c (some e)

/-- The write of an output operator to its cell, mod.rs:290-329. -/
def writeCell (cells : Cell → Val) : Option (Cell × Val) → Cell → Val
  | none => cells
  | some (c, v) => fun c' => if c' = c then v else cells c'

/-- One step of the dispatching thread, mod.rs:129-189; `none` if it waits or has no more items. -/
def dispatchStep (prog : List (Item Op Err E)) (s : State Val Err Cell E) : Option (State Val Err Cell E) :=
  match prog[s.pc]? with
  | none => none
  | some it =>
    match s.dp with
    | .pre => some { s with
        error := match it.pre with
          | none => s.error
          | some e => setError s.error it.circ e
        dp := .recv }
    | .recv => if s.tokens = 0 then none else some { s with tokens := s.tokens - 1, dp := .count }
    | .count => some { s with
        remaining := if it.op.isNone then s.remaining else upd s.remaining it.circ (s.remaining it.circ + 1)
        numDeps := upd s.numDeps s.pc 1
        phase := upd s.phase s.pc .blocked
        dp := .link it.deps }
    | .link (d :: ds) =>
      if s.locked d.1 then some { s with dp := .link ds }
      else some { s with
        numDeps := upd s.numDeps s.pc (s.numDeps s.pc + 1)
        waiters := upd s.waiters d.1 (s.pc :: s.waiters d.1)
        dp := .link ds }
    | .link [] => some { s with
        numDeps := upd s.numDeps s.pc (s.numDeps s.pc - 1)
        phase := if s.numDeps s.pc = 1 then upd s.phase s.pc .ready else s.phase
        pc := s.pc + 1
        dp := .pre }

/-- One step of task `t`, mod.rs:191-253; `none` if it cannot move. `workers` is the number of pool threads, `flow` the
capacity of the flow-control channel. -/
def taskStep (exec : Exec Op Val Err Cell E) (workers flow : Nat) (prog : List (Item Op Err E)) (s : State Val Err Cell E) (t : Nat) :
    Option (State Val Err Cell E) :=
  match prog[t]? with
  | none => none
  | some it =>
    match s.phase t with
    | .absent => none
    | .blocked => none
    | .done => none
    | .ready =>
      if s.running.length < workers then some { s with phase := upd s.phase t .started, running := t :: s.running } else none
    | .started => some { s with phase := upd s.phase t (if (s.error it.circ).isNone then .exec else .lock) }
    | .exec =>
      match it.op with
      | none => some { s with phase := upd s.phase t .lock, runs := upd s.runs t (s.runs t + 1) }
      | some op =>
        match exec op s.cells (it.deps.map fun d => (s.out d.1, d.2)) with
        | .error e => some { s with phase := upd s.phase t (.fail e), runs := upd s.runs t (s.runs t + 1) }
        | .ok (o, w) => some { s with
            out := upd s.out t o
            cells := writeCell s.cells w
            phase := upd s.phase t .lock
            runs := upd s.runs t (s.runs t + 1) }
    | .fail e => some { s with error := setError s.error it.circ e, phase := upd s.phase t .lock }
    | .lock => if s.locked t then none else some { s with locked := upd s.locked t true, phase := upd s.phase t .notify }
    | .notify =>
      match s.waiters t with
      | [] => some { s with phase := upd s.phase t .send }
      | d :: ds => some { s with
          waiters := upd s.waiters t ds
          numDeps := upd s.numDeps d (s.numDeps d - 1)
          phase := if s.numDeps d = 1 then upd s.phase d .ready else s.phase }
    | .send =>
      if s.tokens < flow then some { s with tokens := s.tokens + 1, phase := upd s.phase t .retire } else none
    | .retire => some { s with
        remaining := upd s.remaining it.circ (s.remaining it.circ - 1)
        fired := if s.remaining it.circ = 1 then upd s.fired it.circ (s.error it.circ :: s.fired it.circ) else s.fired
        phase := upd s.phase t .done
        running := s.running.erase t }

/-- Whose turn it is. -/
inductive Who | dispatcher | task (t : Nat)
  deriving Repr, DecidableEq

/-- One step of the system. -/
def step (exec : Exec Op Val Err Cell E) (workers flow : Nat) (prog : List (Item Op Err E)) (s : State Val Err Cell E) :
    Who → Option (State Val Err Cell E)
  | .dispatcher => dispatchStep prog s
  | .task t => taskStep exec workers flow prog s t

/-- A schedule: run the given turns. -/
def run (exec : Exec Op Val Err Cell E) (workers flow : Nat) (prog : List (Item Op Err E)) :
    List Who → State Val Err Cell E → Option (State Val Err Cell E)
  | [], s => some s
  | w :: ws, s => match step exec workers flow prog s w with
    | none => none
    | some s' => run exec workers flow prog ws s'

/-! ## `spawn_graph` -/
open Spf.Fhe

/-- Errors, abstractly: an operator rejected its inputs; a `Retire` in a user circuit (runtime_error.rs). -/
inductive RtErr | op (o : FheOp) | illegalRetire
  deriving Repr, DecidableEq

/-- `exec_op` on messages, mod.rs:255-546 with `validate`, task.rs:26-31. Output operators write their cell and produce no
ciphertext for other tasks. -/
def fheExec (deg : Nat) : Exec FheOp Fhe.Val RtErr (CtType × Nat) FheEdge := fun op cells ins =>
  if op = .nop ∧ ins.isEmpty then .ok (none, none)
  else match ins.mapM (fun p => p.1.map fun v => (v, p.2)) with
    | none => .error (.op op)
    | some ins =>
      match execOp deg (fun t c => cells (t, c)) op ins with
      | none => .error (.op op)
      | some v => match op with
        | .output t c => .ok (none, some ((t, c), v))
        | _ => .ok (some v, none)

/-- The map `tasks` of mod.rs:582, newest entry first: the task of a node and how many of its uses are still to come. -/
abbrev TaskMap := List (Nat × Nat × Nat)

/-- mod.rs:587-600: look up the tasks of the incoming edges, counting down their uses. `none` is the panic of the
`unwrap`. -/
def collectDeps : List (Nat × Nat × FheEdge) → TaskMap → Option (List (Nat × FheEdge) × TaskMap)
  | [], m => some ([], m)
  | e :: es, m =>
    match m.lookup e.1 with
    | none => none
    | some (task, count) =>
      if count = 0 then none
      else
        let m' := m.filter fun p => !(p.1 == e.1)
        let m' := if count - 1 = 0 then m' else (e.1, task, count - 1) :: m'
        match collectDeps es m' with
        | none => none
        | some (ds, m'') => some ((task, e.2.2) :: ds, m'')

/-- `spawn_graph`, mod.rs:574-623: the calls of `dispatch` made for the nodes `ord` (the order in which `petgraph`'s `Topo`
visits them), the first getting the number `next`. -/
def spawnLoop (g : FGraph) (circ : Nat) : List Nat → Nat → TaskMap → Option (List (Item FheOp RtErr FheEdge))
  | [], _, _ => some [⟨circ, none, [], none⟩]
  | n :: ns, next, m =>
    match collectDeps (g.inEdges n) m, g.weight n with
    | some (deps, m'), some op =>
      if op = .retire then some [⟨circ, none, [], some .illegalRetire⟩]
      else
        match spawnLoop g circ ns (next + 1) ((n, next, (g.outEdges n).length) :: m') with
        | none => none
        | some items => some (⟨circ, some op, deps, none⟩ :: items)
    | _, _ => none

/-- Calling `spawn_graph` for several circuits, one after the other, each with its own completion handler; circuit `k`
is the `k`-th. -/
def spawnAll : List (FGraph × List Nat) → Nat → Nat → Option (List (Item FheOp RtErr FheEdge))
  | [], _, _ => some []
  | (g, ord) :: gs, circ, next =>
    match spawnLoop g circ ord next [] with
    | none => none
    | some items =>
      match spawnAll gs (circ + 1) (next + items.length) with
      | none => none
      | some rest => some (items ++ rest)

end Spf.Sched
