/-! Model of the views of flat slices in `sunscreen_tfhe/src/dst.rs`: the iterators of `dst_iter!` over a slice in
steps of `stride` elements. A shared item is the sub-slice; an item of a mutable iterator is the range (offset, length) of the raw
slice made from it. `none` (outermost) is a panic. Slices are shorter than `2^63` elements, so the casts to
`i64`/`isize` are exact. -/
namespace Spf.Dst
variable {α : Type}

/-- The iterator struct, sunscreen_tfhe/src/dst.rs:155-160. -/
structure It (α : Type) where
  data : List α
  stride : Nat
  front : Nat
  back : Int

/-- `new`, sunscreen_tfhe/src/dst.rs:165-174; the remainder by zero panics. -/
def itNew (data : List α) (stride : Nat) : Option (It α) :=
  if stride = 0 then none
  else if data.length % stride = 0 then some ⟨data, stride, 0, (data.length : Int) - stride⟩
  else none

/-- Slicing `data[start..start + n]`, panics out of range. -/
def slice (data : List α) (start n : Nat) : Option (List α) :=
  if start + n ≤ data.length then some ((data.drop start).take n) else none

/-- `next`, sunscreen_tfhe/src/dst.rs:187-203. -/
def itNext (it : It α) : Option (Option (List α) × It α) :=
  if it.front ≥ it.data.length then some (none, it)
  else if (it.front : Int) = it.back + it.stride then some (none, it)
  else (slice it.data it.front it.stride).map fun s => (some s, { it with front := it.front + it.stride })

/-- `next_back`, sunscreen_tfhe/src/dst.rs:207-225. -/
def itNextBack (it : It α) : Option (Option (List α) × It α) :=
  if it.back < 0 then some (none, it)
  else if (it.front : Int) = it.back + it.stride then some (none, it)
  else (slice it.data it.back.toNat it.stride).map fun s => (some s, { it with back := it.back - it.stride })

/-- `ExactSizeIterator::len`, sunscreen_tfhe/src/dst.rs:178-181. -/
def itLen (it : It α) : Nat := it.data.length / it.stride

/-- A sequence of calls (`true`: `next`, `false`: `next_back`) and the items they return. -/
def itRun : It α → List Bool → Option (List (Option (List α)) × It α)
  | it, [] => some ([], it)
  | it, c :: cs =>
    match (if c then itNext it else itNextBack it) with
    | none => none
    | some (x, it') => (itRun it' cs).map fun r => (x :: r.1, r.2)

/-- The mutable iterator, sunscreen_tfhe/src/dst.rs:320-326. `start` is the address 0; offsets are relative to it. -/
structure ItMut where
  stride : Nat
  front : Int
  back : Int

/-- `new`, sunscreen_tfhe/src/dst.rs:331-343, for a slice of `len` elements. `data.len() - stride` panics below zero
when overflow checks are on, and otherwise wraps; cast to `isize` it is the difference. -/
def itMutNew (checks : Bool) (len stride : Nat) : Option ItMut :=
  if stride = 0 then none
  else if len % stride = 0 then
    if checks ∧ len < stride then none else some ⟨stride, 0, (len : Int) - stride⟩
  else none

/-- `next`, sunscreen_tfhe/src/dst.rs:349-362. -/
def itMutNext (it : ItMut) : Option (Int × Nat) × ItMut :=
  if it.front > it.back then (none, it)
  else (some (it.front, it.stride), { it with front := it.front + it.stride })

/-- `next_back`, sunscreen_tfhe/src/dst.rs:373-386. -/
def itMutNextBack (it : ItMut) : Option (Int × Nat) × ItMut :=
  if it.front > it.back then (none, it)
  else (some (it.back, it.stride), { it with back := it.back - it.stride })

/-- `len`, sunscreen_tfhe/src/dst.rs:367-369 (the cast to `usize` of a non-negative value). -/
def itMutLen (it : ItMut) : Nat := (it.back - it.front + it.stride).toNat / it.stride

/-- A sequence of calls on the mutable iterator. -/
def itMutRun : ItMut → List Bool → List (Option (Int × Nat)) × ItMut
  | it, [] => ([], it)
  | it, c :: cs =>
    let r := if c then itMutNext it else itMutNextBack it
    let rest := itMutRun r.2 cs
    (r.1 :: rest.1, rest.2)

/-- The parallel iterators, sunscreen_tfhe/src/dst.rs:229-233 and 389-393; `off` is where `data` starts in the slice
the iterator was made from. -/
structure Par (α : Type) where
  data : List α
  off : Nat
  stride : Nat
  count : Nat

/-- `new`, sunscreen_tfhe/src/dst.rs:239-249 and 399-409. -/
def parNew (data : List α) (stride : Nat) : Option (Par α) :=
  if stride = 0 then none
  else if data.length % stride = 0 then some ⟨data, 0, stride, data.length / stride⟩
  else none

/-- `split_at`, sunscreen_tfhe/src/dst.rs:258-276 and 418-436. -/
def parSplit (p : Par α) (index : Nat) : Option (Par α × Par α) :=
  if index * p.stride ≤ p.data.length ∧ index ≤ p.count then
    some (⟨p.data.take (index * p.stride), p.off, p.stride, index⟩,
      ⟨p.data.drop (index * p.stride), p.off + index * p.stride, p.stride, p.count - index⟩)
  else none

/-- How rayon's `bridge` may divide the work: it splits a producer at positions of its choice, and turns the pieces
into sequential iterators. -/
inductive Plan where
  | leaf
  | split (index : Nat) (l r : Plan)

/-- All items of a sequential iterator, front to back (`fuel` bounds the number of calls). -/
def drain : Nat → It α → Option (List (List α))
  | 0, _ => none
  | fuel + 1, it =>
    match itNext it with
    | none => none
    | some (none, _) => some []
    | some (some x, it') => (drain fuel it').map (x :: ·)

/-- All ranges of a mutable iterator, front to back. -/
def drainMut : Nat → ItMut → Option (List (Int × Nat))
  | 0, _ => none
  | fuel + 1, it =>
    match itMutNext it with
    | (none, _) => some []
    | (some x, it') => (drainMut fuel it').map (x :: ·)

/-- Driving a parallel iterator by a plan: the items, in the order of their positions
(sunscreen_tfhe/src/dst.rs:278-312). -/
def parDrive : Plan → Par α → Option (List (List α))
  | .leaf, p => (itNew p.data p.stride).bind (drain (p.data.length + 1))
  | .split i l r, p => do
    let (a, b) ← parSplit p i
    let x ← parDrive l a
    let y ← parDrive r b
    some (x ++ y)

/-- Driving a mutable parallel iterator by a plan: the ranges, relative to the slice the iterator was made from
(sunscreen_tfhe/src/dst.rs:438-472). -/
def parDriveMut (checks : Bool) : Plan → Par α → Option (List (Int × Nat))
  | .leaf, p => do
    let it ← itMutNew checks p.data.length p.stride
    let xs ← drainMut (p.data.length + 1) it
    some (xs.map fun x => (x.1 + p.off, x.2))
  | .split i l r, p => do
    let (a, b) ← parSplit p i
    let x ← parDriveMut checks l a
    let y ← parDriveMut checks r b
    some (x ++ y)

/-- The whole of an entity as seen through its iterator. -/
def items (data : List α) (stride : Nat) : Option (List (List α)) :=
  (itNew data stride).bind (drain (data.length + 1))

end Spf.Dst
