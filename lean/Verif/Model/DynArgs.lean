import Verif.Model.RunProgram
/-! Integers whose width is only known at run time as arguments: `DynamicToArg` of parasol_cpu/src/proc/args.rs and its uses in parasol_cpu/src/memory/mod.rs. -/
namespace Spf.Cpu
variable {C : Type}

/-- args.rs:345-347, 388-390 `alignment`, and 349-351, 392-394 `size` (`DynamicUInt` and `DynamicInt` have the same). -/
def dynSize (bits : List C) : Nat := bits.length / 8

/-- args.rs:353-360, 386-393 `to_bytes`: the assertion, then the chunks of eight ciphertexts. (`usize::is_power_of_two` is false for 0.) -/
def dynToBytes (bits : List C) : Except Err (List (Byte C)) :=
  if bits.length ≠ 0 ∧ 2 ^ Nat.log2 bits.length = bits.length ∧ bits.length % 8 = 0 then .ok ((chunks 8 bits.length bits).map .cipher) else .error .panic

/-- args.rs:87-107 `DynamicToArg::to_arg` (the assertion on the length, 99, holds: 8 divides the number of bits). -/
def dynArg (bits : List C) : Except Err (Arg C) :=
  match dynToBytes bits with
  | .error e => .error e
  | .ok bs => .ok ⟨dynSize bits, bs⟩

/-- args.rs:362-375, 395-408 `try_from_bytes`: unlike for the types of static width, any number of bytes is accepted. -/
def dynFromBytes (data : List (Byte C)) : Except Err (List C) := cipherBits data

/-- memory/mod.rs:654-666 `try_write_type_dyn`: the value is converted after the checks of address and range. -/
def Mem.writeDyn (m : Mem C) (p : Nat) (bits : List C) : Mem C × Except Err Unit :=
  if dynSize bits = 0 then (m, .error .panic)
  else if p % dynSize bits ≠ 0 then (m, .error (.unaligned p))
  else match m.checkRange p (dynSize bits) with
    | .error e => (m, .error e)
    | .ok () => match dynToBytes bits with
      | .error e => (m, .error e)
      | .ok bs => m.storeAll p bs 0

/-- memory/mod.rs:687-707 `try_load_type_dyn`. -/
def Mem.loadDyn (m : Mem C) (p align size : Nat) : Except Err (List C) :=
  match m.readBytes p align size with
  | .error e => .error e
  | .ok bs => dynFromBytes bs

end Spf.Cpu
