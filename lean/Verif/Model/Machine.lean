import Verif.Model.Memory
/-! Model of the out-of-order processor: `parasol_cpu/src/proc/fhe_processor.rs` (FP below), `parasol_cpu/src/tomasulo/*.rs`
and the `define_op!` dispatch code of `parasol_cpu/src/proc/assembly.rs`.

The machine is parametrised by the instruction set (`Isa`); `Verif.Model.Exec` gives the instance for the real one.
Everything the main thread does between two points where another thread can interfere is one step; the background threads
that evaluate ciphertext circuits interfere only by retiring instructions. A schedule is a list of labels, and every list of
labels for which `step` succeeds is allowed; this includes every real schedule (a real one takes the ready instructions in
FIFO order and the dependents in LIFO order).

Simplifications. A ciphertext computed in the background is written to its register when the instruction starts; its bits
are read only by instructions that wait for it to retire, and its kind is set by the real code at that moment too. Code is
not read from the data memory: `prog` is fixed. Errors of the background evaluation itself are not modelled. -/
namespace Spf.Machine
open Spf.Cpu (Err)

/-- What the machine needs to know about an instruction set. `V` are register contents, `A` addresses, `B` bytes. -/
structure Isa (I V A B : Type) where
  /-- source registers, in operand order (assembly.rs:246-262) -/
  srcs : I → List Nat
  /-- destination registers, in operand order -/
  dsts : I → List Nat
  /-- the contents of a fresh register (registers.rs:303-305) -/
  dflt : V
  /-- the addresses a memory instruction touches, given the contents of its sources (FP:168-197) -/
  access : I → List V → Except Err (List A)
  /-- execution (FP:727-910): contents of the destinations and the new memory -/
  exec : I → List V → (A → B) → Except Err (List V × (A → B))
  /-- whether execution continues in the background after the destinations were set -/
  async : I → List V → Bool
  /-- next program counter (FP:912-947) -/
  next : I → Nat → List V → Except Err Nat
  /-- gas (FP:221-307) -/
  gas : I → List V → Nat

/-- registers.rs:133-139 `RobEntryRef`: a register cell, either the initial contents of register `r` (FP:593-600 `reset`,
573-588) or the `k`-th destination of instruction `i`. -/
inductive Src
  | init (r : Nat)
  | out (i k : Nat)
  deriving Repr, DecidableEq

/-- registers.rs:83-85 `get_instruction`: the instruction that produces a cell. -/
def Src.producer : Src → Option Nat
  | .init _ => none
  | .out i _ => some i

/-- The life of an instruction: `waiting` for its dependencies; `running` in the background; `retiring`: its `dependents`
are locked for good (FP:486-497); `retired`. -/
inductive Status
  | waiting | running | retiring | retired
  deriving Repr, DecidableEq

/-- An executed instruction: its destinations hold their final contents. -/
def Status.executed : Status → Bool
  | .waiting => false
  | _ => true

/-- scoreboard.rs:77-86 `ScoreboardEntry`. `need` and `addrs` only record, for reference, the dependencies collected at
dispatch and the addresses entered into `inflight_memory_ops`. -/
structure Entry (I A : Type) where
  inst : I
  srcs : List Src
  deps : Nat
  dependents : List Nat
  status : Status
  need : List Nat
  addrs : List A

/-- What the main thread is doing: nothing in particular (it may take a ready instruction), registering the dependencies of
an instruction (FP:366-375), or retiring an instruction it has executed (FP:475-517). -/
inductive Main
  | idle
  | dispatching (i : Nat) (pend : List Nat)
  | retiring (i : Nat)
  deriving Repr, DecidableEq

/-- The front end (FP:657-690): about to fetch; instruction `i` with gas `g` dispatched
and its successor to be determined; or stopped. -/
inductive Front
  | fetch
  | resolve (i g : Nat)
  | stopped
  deriving Repr, DecidableEq

/-- FP:107-131 `FheProcessor` together with mod.rs:226-243 `FheProcessorAuxData` and the memory. `ready` is the channel of
ready instructions, with a flag telling that a background thread sent it; `lost` records, for reference, an instruction whose
dispatch failed after it was counted in flight. -/
structure St (I V A B : Type) where
  n : Nat
  ent : Nat → Entry I A
  vals : Nat → Nat → V
  rename : Nat → Src
  mem : A → B
  inflight : A → Option Nat
  fault : Option Err
  pc : Nat
  ready : List (Nat × Bool)
  main : Main
  front : Front
  inflightCount : Nat
  gas : Nat
  lost : Option Nat

variable {I V A B : Type} [DecidableEq A]

/-- The contents of a cell. -/
def St.val (init : Nat → V) (s : St I V A B) : Src → V
  | .init r => init r
  | .out i k => s.vals i k

/-- The contents of the sources of instruction `i`. -/
def St.srcVals (init : Nat → V) (s : St I V A B) (i : Nat) : List V := (s.ent i).srcs.map (s.val init)

/-- registers.rs:47-69 `rename`, for every destination in order (assembly.rs:314-316): cell `k` of instruction `i`. -/
def renameAll (ρ : Nat → Src) (i : Nat) : Nat → List Nat → Nat → Src
  | _, [] => ρ
  | k, d :: ds => renameAll (fun r => if r = d then .out i k else ρ r) i (k + 1) ds

/-- FP:180-192: dependencies on the last instructions that touched the addresses. -/
def memDeps (infl : A → Option Nat) (l : List A) : List Nat := l.filterMap infl

/-- FP:189-191: this instruction is now the last one that touched the addresses. -/
def markInflight (infl : A → Option Nat) (l : List A) (i : Nat) : A → Option Nat :=
  fun a => if a ∈ l then some i else infl a

/-- replace entry `i` -/
def setEnt (f : Nat → Entry I A) (i : Nat) (e : Entry I A) : Nat → Entry I A := fun j => if j = i then e else f j

/-- `OnceLock::set`: the first fault stays (FP:479, 691). -/
def setFault (f : Option Err) (e : Err) : Option Err :=
  match f with
  | none => some e
  | some x => some x

/-- the front end stops with an error (FP:687-692) -/
def St.stop (s : St I V A B) (e : Err) : St I V A B := { s with fault := setFault s.fault e, front := .stopped }

/-- The steps. -/
inductive Label
  | fetch | dep | dispatched | resolve | exec (i : Nat) (bg : Bool) | asyncDone (i : Nat) | notify (i : Nat) | retire (i : Nat)
  deriving Repr, DecidableEq

/-- Every instruction waiting in the channel was sent by a background thread: the main thread found the channel empty
(FP:430-436) since it last sent one itself. -/
def drained (s : St I V A B) : Bool := s.ready.all (·.2)

/-- FP:657-681 fetch and dispatch of one instruction up to the registration of its dependencies (FP:309-364). -/
def fetchStep (isa : Isa I V A B) (prog : Nat → Except Err I) (init : Nat → V) (limit : Option Nat) (s : St I V A B) : St I V A B :=
  match s.fault with
  | some _ => { s with front := .stopped }                                     -- FP:662-665
  | none =>
  match prog s.pc with
  | .error e => s.stop e                                                        -- FP:667-668
  | .ok inst =>
    let srcs := (isa.srcs inst).map s.rename                                    -- assembly.rs:313
    let vals := srcs.map (s.val init)
    let g := isa.gas inst vals                                                  -- FP:342
    if limit.any (g > ·) then s.stop (.outOfGas g (limit.getD 0))               -- FP:344-348
    else
      let i := s.n
      let producers := srcs.filterMap Src.producer                              -- FP:332
      let s1 := { s with
        n := s.n + 1
        rename := renameAll s.rename i 0 (isa.dsts inst)
        inflightCount := s.inflightCount + 1                                    -- FP:353
        front := .resolve i g }
      match isa.access inst vals with
      | .error e =>                                                             -- FP:364 `?`
        { s1.stop e with
          ent := setEnt s.ent i ⟨inst, srcs, 1, [], .waiting, producers, []⟩
          lost := some i }
      | .ok addrs =>
        let need := producers ++ memDeps s.inflight addrs
        { s1 with
          ent := setEnt s.ent i ⟨inst, srcs, 1, [], .waiting, need, addrs⟩
          inflight := markInflight s.inflight addrs i
          main := .dispatching i need }

/-- FP:366-375: take one dependency, unless it has retired (its `dependents` are locked). -/
def depStep (s : St I V A B) (i d : Nat) (ds : List Nat) : St I V A B :=
  let ed := s.ent d
  let s := { s with main := .dispatching i ds }
  if ed.status = .waiting ∨ ed.status = .running then
    let ent := setEnt s.ent d { ed with dependents := i :: ed.dependents }
    { s with ent := setEnt ent i { ent i with deps := (ent i).deps + 1 } }
  else s

/-- decrement a dependency counter; the instruction becomes ready when it was 1 (FP:382-387, 487-494). -/
def decr (s : St I V A B) (i : Nat) (bg : Bool) : St I V A B :=
  let e := s.ent i
  let s := { s with ent := setEnt s.ent i { e with deps := e.deps - 1 } }
  if e.deps = 1 then { s with ready := s.ready ++ [(i, bg)] } else s

/-- FP:394-396, 912-947 and 672-684: the next program counter, read after the ready instructions were executed. -/
def resolveStep (isa : Isa I V A B) (init : Nat → V) (s : St I V A B) (i g : Nat) : St I V A B :=
  match isa.next (s.ent i).inst s.pc (s.srcVals init i) with
  | .ok pc' => { s with pc := pc', gas := s.gas + g, front := .fetch }
  | .error .halt => { s with front := .stopped }
  | .error e => s.stop e

/-- write the destinations of instruction `i` -/
def writeOuts (f : Nat → Nat → V) (dflt : V) (i : Nat) (outs : List V) : Nat → Nat → V :=
  fun j k => if j = i then outs.getD k dflt else f j k

/-- FP:447-455, 727-910: execute a ready instruction; after a fault it only retires (FP:751-756). -/
def execStep (isa : Isa I V A B) (init : Nat → V) (s : St I V A B) (i : Nat) (bg : Bool) : St I V A B :=
  let s := { s with ready := s.ready.erase (i, bg) }
  let e := s.ent i
  match s.fault with
  | some _ => { s with ent := setEnt s.ent i { e with status := .retiring }, main := .retiring i }
  | none =>
    let vals := s.srcVals init i
    match isa.exec e.inst vals s.mem with
    | .error x =>
      { s with ent := setEnt s.ent i { e with status := .retiring }, main := .retiring i, fault := setFault s.fault x }
    | .ok (outs, mem') =>
      let s := { s with vals := writeOuts s.vals isa.dflt i outs, mem := mem' }
      if isa.async e.inst vals then { s with ent := setEnt s.ent i { e with status := .running } }
      else { s with ent := setEnt s.ent i { e with status := .retiring }, main := .retiring i }

/-- FP:487-495: notify one dependent of a retiring instruction. -/
def notifyStep (s : St I V A B) (i : Nat) : St I V A B :=
  match (s.ent i).dependents with
  | [] => s
  | d :: ds =>
    decr { s with ent := setEnt s.ent i { s.ent i with dependents := ds } } d (decide (s.main ≠ .retiring i))

/-- FP:497-516 and the receipt of the message, FP:441-452. -/
def retireStep (s : St I V A B) (i : Nat) : St I V A B :=
  { s with
    ent := setEnt s.ent i { s.ent i with status := .retired }
    main := if s.main = .retiring i then .idle else s.main
    inflightCount := s.inflightCount - 1 }

/-- One step; `none` when it is not possible. -/
def step (isa : Isa I V A B) (prog : Nat → Except Err I) (init : Nat → V) (limit : Option Nat) (s : St I V A B) (l : Label) :
    Option (St I V A B) :=
  match l with
  | .fetch => if s.main = .idle ∧ s.front = .fetch then some (fetchStep isa prog init limit s) else none
  | .dep => match s.main with
    | .dispatching i (d :: ds) => some (depStep s i d ds)
    | _ => none
  | .dispatched => match s.main with
    | .dispatching i [] => some (decr { s with main := .idle } i false)
    | _ => none
  | .resolve => match s.front with
    | .resolve i g => if s.main = .idle ∧ drained s = true then some (resolveStep isa init s i g) else none
    | _ => none
  | .exec i bg => if s.main = .idle ∧ (i, bg) ∈ s.ready then some (execStep isa init s i bg) else none
  | .asyncDone i => if i < s.n ∧ (s.ent i).status = .running then
      some { s with ent := setEnt s.ent i { s.ent i with status := .retiring } } else none
  | .notify i => if i < s.n ∧ (s.ent i).status = .retiring ∧ (s.ent i).dependents ≠ [] then some (notifyStep s i) else none
  | .retire i => if i < s.n ∧ (s.ent i).status = .retiring ∧ (s.ent i).dependents = [] then some (retireStep s i) else none

/-- The state in which the program starts (FP:593-609 `reset`, 635-656): nothing in flight. -/
def start (isa : Isa I V A B) (mem : A → B) (pc : Nat) (e0 : Entry I A) : St I V A B :=
  { n := 0, ent := fun _ => e0, vals := fun _ _ => isa.dflt, rename := .init, mem := mem, inflight := fun _ => none, fault := none,
    pc := pc, ready := [], main := .idle, front := .fetch, inflightCount := 0, gas := 0, lost := none }

/-- A schedule. -/
def run (isa : Isa I V A B) (prog : Nat → Except Err I) (init : Nat → V) (limit : Option Nat) :
    St I V A B → List Label → Option (St I V A B)
  | s, [] => some s
  | s, l :: ls => match step isa prog init limit s l with
    | none => none
    | some s' => run isa prog init limit s' ls

/-- `run_program` returns (FP:695-706): the front end stopped and no instruction is in flight. -/
def St.done (s : St I V A B) : Prop := s.front = .stopped ∧ s.inflightCount = 0

end Spf.Machine
