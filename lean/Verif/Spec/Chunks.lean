/-! Specification: a list cut into pieces of `s` elements, and double-ended queues. -/
namespace Spf.Spec
variable {α : Type}

/-- The `i`-th piece of `s` elements. -/
def chunk (s : Nat) (l : List α) (i : Nat) : List α := (l.drop (i * s)).take s

/-- The pieces of `s` elements, in order (for a length that is a multiple of `s`, all of the list). -/
def chunks (s : Nat) (l : List α) : List (List α) := (List.range (l.length / s)).map (chunk s l)

/-- The answers of a double-ended queue to a sequence of removals (`true`: from the front), and what is left in it. -/
def deque : List α → List Bool → List (Option α) × List α
  | xs, [] => ([], xs)
  | xs, true :: cs => (xs.head? :: (deque xs.tail cs).1, (deque xs.tail cs).2)
  | xs, false :: cs => (xs.getLast? :: (deque xs.dropLast cs).1, (deque xs.dropLast cs).2)

/-- `n` elements from `off`, all inside a slice of `len` elements. -/
def Inside (len : Nat) (r : Int × Nat) : Prop := 0 ≤ r.1 ∧ r.1 + r.2 ≤ len

/-- Two ranges with no element in common. -/
def RangesApart (r t : Int × Nat) : Prop := r.1 + r.2 ≤ t.1 ∨ t.1 + t.2 ≤ r.1

/-- The range (offset, length) of the `i`-th piece of `s` elements. -/
def pieceRange (s i : Nat) : Int × Nat := ((i * s : Nat), s)

/-- A type of structured values stored in flat slices of `size` elements: `flat` writes a value of the right shape into
such a slice, `view` reads a slice, and the two are inverse to each other; so slices of that length and values of the
right shape are the same thing. -/
def Stores {β : Type} (size : Nat) (view : List α → Option β) (flat : β → List α) (shape : β → Prop) : Prop :=
  (∀ x, shape x → (flat x).length = size ∧ view (flat x) = some x) ∧
  (∀ data, data.length = size → ∃ x, view data = some x ∧ shape x ∧ flat x = data)

/-- `n` values of a shape. -/
def Many {β : Type} (n : Nat) (shape : β → Prop) (xs : List β) : Prop := xs.length = n ∧ ∀ x ∈ xs, shape x

/-- One value after another. -/
def flatMany {β : Type} (flat : β → List α) (xs : List β) : List α := xs.flatMap flat

end Spf.Spec
