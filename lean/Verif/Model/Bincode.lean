import Mathlib.Data.List.Basic

/-!
# Safe bincode deserialization

Model of `parasol_runtime/src/safe_bincode.rs` together with the `GetSize` implementations of the
ciphertexts, keys, one time pads and encrypted integers.

Simplifications: the different bincode errors are one failure (`none`); `usize` arithmetic is
exact; the bincode 1.3.3 crate (fixed width little endian integers, 8 byte sequence lengths, byte
limit charged on every read) and the serde derives (fields in declaration order, newtypes,
`Arc`, `AtomicRefCell` and `PhantomData` transparent) are modelled from their documented
behaviour, their source is not in /repo.
-/
namespace Spf.Bincode

/-- A byte. -/
abbrev Byte := BitVec 8

/-- Little endian value of bytes; `byteorder::LittleEndian`, used by
safe_bincode.rs:20 `with_fixint_encoding` (bincode's default endianness). -/
def leVal : List Byte → Nat
  | [] => 0
  | b :: bs => b.toNat + 256 * leVal bs

/-- `n` little endian bytes of `v` (`bincode::serialize`, used by the tests at
safe_bincode.rs:46-53). -/
def leBytes : Nat → Nat → List Byte
  | 0, _ => []
  | n + 1, v => BitVec.ofNat 8 v :: leBytes n (v / 256)

/-- The state of `bincode::Deserializer::from_slice(data, options)` (safe_bincode.rs:18-23): the
bytes not read yet and what is left of `with_limit`. -/
structure St where
  bytes : List Byte
  limit : Nat
  deriving DecidableEq, Repr

/-- A `Deserialize::deserialize` (safe_bincode.rs:24). -/
abbrev Dec (α : Type) := St → Option (α × St)

/-- Reading `n` bytes: fails when the limit or the data run out (safe_bincode.rs:19,23). -/
def readBytes (n : Nat) : Dec (List Byte) := fun s =>
  if n ≤ s.limit ∧ n ≤ s.bytes.length then
    some (s.bytes.take n, ⟨s.bytes.drop n, s.limit - n⟩)
  else none

/-- A fixed width unsigned integer of `n` bytes (safe_bincode.rs:20). -/
def readInt (n : Nat) : Dec Nat := fun s =>
  match readBytes n s with
  | some (bs, s') => some (leVal bs, s')
  | none => none

/-- `n` values one after the other: the element loop of a sequence, or the fields of a tuple. -/
def readMany {α : Type} (d : Dec α) : Nat → Dec (List α)
  | 0, s => some ([], s)
  | n + 1, s =>
    match d s with
    | none => none
    | some (x, s') =>
      match readMany d n s' with
      | none => none
      | some (xs, s'') => some (x :: xs, s'')

/-- A sequence: an 8 byte length, then that many elements. `Vec` in dynamic_generic_int.rs:17 and
`aligned_vec::AVec` in sunscreen_tfhe/src/dst.rs:33. -/
def readSeq {α : Type} (d : Dec α) : Dec (List α) := fun s =>
  match readInt 8 s with
  | none => none
  | some (n, s') => readMany d n s'

/-- The vector of elements inside a `dst!` entity (sunscreen_tfhe/src/dst.rs:26-35). An element is
`w` 64-bit words: one for `Torus<u64>`, two (the bit patterns of the parts) for `Complex<f64>`. -/
abbrev Data := List (List Nat)

/-- Deserialize of a `dst!` entity (derive at sunscreen_tfhe/src/dst.rs:31). -/
def readData (w : Nat) : Dec Data := readSeq (readMany (readInt 8) w)

/-- Serialize of a sequence of elements given the element serializer. -/
def serSeq {α : Type} (ser : α → List Byte) (v : List α) : List Byte :=
  leBytes 8 v.length ++ v.flatMap ser

/-- Serialize of a `dst!` entity (derive at sunscreen_tfhe/src/dst.rs:31). -/
def serData (v : Data) : List Byte := serSeq (fun e => e.flatMap (leBytes 8)) v

/-- The parts of `Params` (parasol_runtime/src/params.rs:55-82) that sizes depend on:
`l0_params.dim`, `l1_params.dim.size`, `l1_params.dim.polynomial_degree` and radix counts. -/
structure Params where
  l0Dim : Nat
  l1Size : Nat
  l1Degree : Nat
  cbs : Nat
  pbs : Nat
  ks : Nat
  ss : Nat
  tr : Nat
  deriving DecidableEq, Repr

/-- `DEFAULT_128` (parasol_runtime/src/params.rs:111-140, sunscreen_tfhe/src/params.rs:219). -/
def default128 : Params :=
  { l0Dim := 637, l1Size := 1, l1Degree := 2048, cbs := 4, pbs := 2, ks := 6, ss := 15, tr := 6 }

/-- entities/lwe_ciphertext.rs:30-32 -/
def lweSize (dim : Nat) : Nat := dim + 1
/-- entities/glwe_secret_key.rs:43-45 -/
def glweSkSize (p : Params) : Nat := p.l1Degree * p.l1Size
/-- sunscreen_tfhe/src/params.rs:141-143 `as_lwe_dimension` -/
def l1LweDim (p : Params) : Nat := p.l1Degree * p.l1Size
/-- entities/glwe_ciphertext.rs:38-41 -/
def glweSize (p : Params) : Nat := glweSkSize p + p.l1Degree
/-- entities/glev_ciphertext.rs:29-31 -/
def glevSize (p : Params) (r : Nat) : Nat := glweSize p * r
/-- entities/ggsw_ciphertext.rs:31-33 -/
def ggswSize (p : Params) (r : Nat) : Nat := glevSize p r * (p.l1Size + 1)
/-- entities/polynomial_fft.rs:38-40 and entities/glwe_ciphertext_fft.rs:25-28 -/
def glweFftSize (p : Params) : Nat := p.l1Degree / 2 * (p.l1Size + 1)
/-- entities/glev_ciphertext_fft.rs:28-30 -/
def glevFftSize (p : Params) (r : Nat) : Nat := glweFftSize p * r
/-- entities/ggsw_ciphertext_fft.rs:26-28 -/
def ggswFftSize (p : Params) (r : Nat) : Nat := glevFftSize p r * (p.l1Size + 1)
/-- entities/bootstrap_key.rs:28-30 -/
def bskSize (p : Params) : Nat := ggswSize p p.pbs * p.l0Dim
/-- entities/bootstrap_key.rs:122-124 -/
def bskFftSize (p : Params) : Nat := ggswFftSize p p.pbs * p.l0Dim
/-- entities/lwe_keyswitch_key.rs:27-36 with entities/lev_ciphertext.rs:24-26, called as at
crypto/keys.rs:173-177 -/
def kskSize (p : Params) : Nat := lweSize p.l0Dim * p.ks * l1LweDim p
/-- entities/scheme_switch_key.rs:15-17 -/
def triEntries (n : Nat) : Nat := n * (n + 1) / 2
/-- entities/scheme_switch_key.rs:49-60 -/
def sskSize (p : Params) : Nat := glweSize p * p.ss * triEntries p.l1Size
/-- entities/scheme_switch_key_fft.rs:30-41 -/
def sskFftSize (p : Params) : Nat := glweFftSize p * p.ss * triEntries p.l1Size
/-- entities/automorphism_key.rs:26-28 with entities/glwe_keyswitch_key.rs:31-33 -/
def akSize (p : Params) : Nat := glevSize p p.tr * p.l1Size * Nat.log2 p.l1Degree
/-- entities/automorphism_key_fft.rs:25-27 with entities/glwe_keyswitch_key_fft.rs:29-31 -/
def akFftSize (p : Params) : Nat := glevFftSize p p.tr * p.l1Size * Nat.log2 p.l1Degree

/-- The ciphertext types (implementors of `CiphertextOps`). -/
inductive CtKind
  | l0lwe | l1lwe | l1glwe | l1ggsw | l1glev
  deriving DecidableEq, Repr

/-- The deserializable types whose contents are a fixed list of `dst!` entities: the ciphertexts,
`Bit<T>` (fluent/bit.rs:14-18), the one time pads (crypto/recryption.rs:12-47) and the keys
(crypto/keys.rs:20-29,95-105,139-159,292-318). -/
inductive Ty
  | ct (k : CtKind)
  | bit (k : CtKind)
  | publicPad | secretPad | publicKey | secretKey | computeKeyNonFft | computeKey
  deriving DecidableEq, Repr

/-- `get_size` of a ciphertext: crypto/encryption.rs:455-457, 468-470, 481-483, 494-497, 508-511. -/
def ctGetSize (p : Params) : CtKind → Nat
  | .l0lwe => (lweSize p.l0Dim + 1) * 8
  | .l1lwe => (lweSize (l1LweDim p) + 1) * 8
  | .l1glwe => (glweSize p + 1) * 8
  | .l1ggsw => (ggswSize p p.cbs + 1) * 8
  | .l1glev => (glevSize p p.cbs + 1) * 8

/-- Words per element of a ciphertext's data: `Complex<f64>` for `L1GgswCiphertext`, `u64`
otherwise (crypto/ciphertext.rs). -/
def ctWords : CtKind → Nat
  | .l1ggsw => 2
  | _ => 1

/-- The length `check_is_valid` requires of a ciphertext: crypto/encryption.rs:459-464, 472-477,
485-490, 499-504, 513-518. -/
def ctLen (p : Params) : CtKind → Nat
  | .l0lwe => lweSize p.l0Dim
  | .l1lwe => lweSize (l1LweDim p)
  | .l1glwe => glweSize p
  | .l1ggsw => ggswFftSize p p.cbs
  | .l1glev => glevSize p p.cbs

/-- The entities of a type, in order: words per element and the length `check_is_valid` requires
(crypto/recryption.rs:28-30,48-53, crypto/keys.rs:37-39,116-121,189-206,352-369,
fluent/bit.rs:25-27). -/
def fields (p : Params) : Ty → List (Nat × Nat)
  | .ct k => [(ctWords k, ctLen p k)]
  | .bit k => [(ctWords k, ctLen p k)]
  | .publicPad => [(1, glweSize p)]
  | .secretPad => [(1, p.l1Degree)]
  | .publicKey => [(1, glweSize p)]
  | .secretKey => [(1, p.l0Dim), (1, glweSkSize p)]
  | .computeKeyNonFft => [(1, bskSize p), (1, kskSize p), (1, akSize p), (1, sskSize p)]
  | .computeKey => [(2, bskFftSize p), (1, kskSize p), (2, sskFftSize p), (2, akFftSize p)]

/-- `get_size`: fluent/bit.rs:21-23, crypto/recryption.rs:32-34,55-58, crypto/keys.rs:32-35,
108-114, 162-187, 321-350. -/
def getSize (p : Params) : Ty → Nat
  | .ct k => ctGetSize p k
  | .bit k => ctGetSize p k
  | .publicPad => ctGetSize p .l1glwe
  | .secretPad => (p.l1Degree + 1) * 8
  | .publicKey => (glweSize p + 1) * 8
  | .secretKey => (p.l0Dim + glweSkSize p + 3) * 8
  | .computeKeyNonFft => (bskSize p + kskSize p + sskSize p + akSize p + 4) * 8
  | .computeKey => (bskSize p + kskSize p + sskSize p + akFftSize p) * 16 + 4 * 8

/-- Deserialize the entities of a struct in declaration order (derives at crypto/keys.rs:95,139,
292). -/
def readFields : List (Nat × Nat) → Dec (List Data)
  | [], s => some ([], s)
  | (w, _) :: fs, s =>
    match readData w s with
    | none => none
    | some (v, s') =>
      match readFields fs s' with
      | none => none
      | some (vs, s'') => some (v :: vs, s'')

/-- `check_is_valid`: every entity has its required length (sunscreen_tfhe/src/dst.rs:510-516). -/
def fieldsValid : List (Nat × Nat) → List Data → Bool
  | [], [] => true
  | (_, n) :: fs, v :: vs => v.length == n && fieldsValid fs vs
  | _, _ => false

/-- Serialize of the entities of a struct. -/
def serFields (vs : List Data) : List Byte := vs.flatMap serData

/-- `safe_bincode::deserialize` (safe_bincode.rs:17-28) for a type with deserializer `d`, `get_size`
`limit` and `check_is_valid` `valid`. Trailing bytes are allowed. -/
def deserializeWith {α : Type} (limit : Nat) (d : Dec α) (valid : α → Bool) (data : List Byte) :
    Option α :=
  match d ⟨data, limit⟩ with
  | none => none
  | some (v, _) => if valid v then some v else none

/-- `safe_bincode::deserialize::<T>` (safe_bincode.rs:17-28) for the fixed shape types. -/
def deserialize (p : Params) (t : Ty) (data : List Byte) : Option (List Data) :=
  deserializeWith (getSize p t) (readFields (fields p t)) (fieldsValid (fields p t)) data

/-- `check_is_valid` of one ciphertext. -/
def ctValid (p : Params) (k : CtKind) (v : Data) : Bool := v.length == ctLen p k

/-- `safe_bincode::deserialize::<GenericInt<N, T, U>>`: generic_int.rs:52-58 (the derive),
84-96 (`get_size` and `check_is_valid`), dynamic_generic_int.rs:12-19. The value is the vector
`bits`. -/
def deserializeInt (p : Params) (k : CtKind) (N : Nat) (data : List Byte) : Option (List Data) :=
  deserializeWith (N * ctGetSize p k + 8) (readSeq (readData (ctWords k)))
    (fun bits => bits.all (ctValid p k)) data

/-- Serialize of `GenericInt`. -/
def serInt (bits : List Data) : List Byte := serSeq serData bits

/-- Deserialize of the fields `bit_len: u32` and `ct` of `PackedDynamicGenericInt`
(generic_int.rs:176-184). -/
def readPacked (k : CtKind) : Dec (Nat × Data) := fun s =>
  match readInt 4 s with
  | none => none
  | some (n, s') =>
    match readData (ctWords k) s' with
    | none => none
    | some (v, s'') => some ((n, v), s'')

/-- `safe_bincode::deserialize::<PackedGenericInt<N, T, U>>` (packed_generic_int.rs:45-51,88-98);
`N` is not used by the code. Also `PackedDynamicGenericInt<T, U>` (generic_int.rs:200-211). The
value is `bit_len` and the ciphertext. -/
def deserializePacked (p : Params) (k : CtKind) (_N : Nat) (data : List Byte) :
    Option (Nat × Data) :=
  deserializeWith (4 + ctGetSize p k) (readPacked k) (fun x => ctValid p k x.2) data

/-- Serialize of `PackedGenericInt`. -/
def serPacked (x : Nat × Data) : List Byte := leBytes 4 x.1 ++ serData x.2

end Spf.Bincode
