import Verif.Model.Args
/-! Model of the sub-allocator `Allocation` of parasol_cpu/src/memory/mod.rs:800-884, with overflow checks. -/
namespace Spf.Cpu
variable {C : Type}

/-- parasol_cpu/src/memory/mod.rs:814-820 `Allocation`. -/
structure Allocation where
  size : Nat
  nextFree : Nat
  base : Nat

/-- parasol_cpu/src/memory/mod.rs:823-833 `Allocation::new`. (`len.next_multiple_of` cannot overflow after the allocation
has succeeded.) -/
def Allocation.fresh (m : Mem C) (len : Nat) : Mem C × Except Err (Allocation × Nat) :=
  match m.allocate len with
  | (m', .ok base) => (m', .ok (⟨nextMultipleOf len pageSize, len, base⟩, base))
  | (m', .error e) => (m', .error e)

/-- parasol_cpu/src/memory/mod.rs:856-883 `Allocation::try_allocate`. `next_multiple_of(0)` panics, as do the additions when
they overflow. -/
def Allocation.tryAllocate (existing : Option Allocation) (m : Mem C) (len alignment : Nat) :
    Mem C × Except Err (Allocation × Nat) :=
  match existing with
  | none => Allocation.fresh m len
  | some e =>
    if alignment = 0 ∨ addrSpace ≤ nextMultipleOf e.nextFree alignment then (m, .error .panic)
    else
      let padded := nextMultipleOf e.nextFree alignment
      if addrSpace ≤ padded + len then (m, .error .panic)
      else if padded + len ≥ e.size then Allocation.fresh m len
      else
        match tryOffset e.base padded with
        | .error err => (m, .error err)
        | .ok ptr =>
          if addrSpace ≤ ptr + len then (m, .error .panic)
          else (m, .ok ({ e with nextFree := ptr + len }, ptr))

end Spf.Cpu
