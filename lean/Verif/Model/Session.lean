import Verif.Model.Machine
/-! A computer used for several programs in a row: `parasol_cpu/src/proc/fhe_processor.rs` (FP below). -/
namespace Spf.Machine
variable {I V A B : Type}

/-- What a run finds when it starts (FP:593-609 `reset`, FP:645-648 and 656, and the end of the previous run, FP:700-701,
which clears `inflight_memory_ops`): every register is a fresh cell, there is no fault, and everything else of the processor
(the channel, the count of instructions in flight, the instruction counter, the scoreboard entries still referenced) is
what the previous run left. The memory and the program counter are given by the caller. -/
def restart (s : St I V A B) (mem : A → B) (pc : Nat) : St I V A B :=
  { s with rename := .init, mem := mem, inflight := fun _ => none, fault := none, pc := pc, front := .fetch, gas := 0 }

/-- FP:133-146 `FheProcessor::new`: a computer that has run nothing. -/
def newComputer (isa : Isa I V A B) (mem : A → B) (e0 : Entry I A) : St I V A B :=
  { start isa mem 0 e0 with front := .stopped }

end Spf.Machine
