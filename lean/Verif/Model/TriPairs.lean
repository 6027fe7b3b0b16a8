/-! Model of `sunscreen_tfhe/src/iteration/triangular_pairs.rs`. -/
namespace Spf.Tri

/-- `TriangularPairs`, triangular_pairs.rs:6-10. -/
structure Pairs (α : Type) where
  items : List α
  outer : Nat
  inner : Nat

/-- `triangular_pairs`, triangular_pairs.rs:59-68. -/
def Pairs.new {α : Type} (items : List α) : Pairs α := { items, outer := 0, inner := 0 }

/-- `TriangularPairs::next`, triangular_pairs.rs:19-40: the outer `none` is an out-of-bounds panic. -/
def Pairs.next {α : Type} (s : Pairs α) : Option (Option (α × α) × Pairs α) :=
  if s.outer ≥ s.items.length then some (none, s)
  else
    match s.items[s.outer]?, s.items[s.inner]? with
    | some a, some b =>
      let inner := s.inner + 1
      if inner ≥ s.items.length then
        some (some (a, b), { s with outer := s.outer + 1, inner := s.outer + 1 })
      else some (some (a, b), { s with inner := inner })
    | _, _ => none

/-- The results of `k` calls of `next` in a row. -/
def Pairs.calls {α : Type} : Nat → Pairs α → Option (List (Option (α × α)))
  | 0, _ => some []
  | k + 1, s => match s.next with
    | none => none
    | some (r, s') => match Pairs.calls k s' with
      | none => none
      | some l => some (r :: l)

/-- `ParTriangularPairs::drive_unindexed`, triangular_pairs.rs:87-104, collected in order (rayon's `flat_map` and
`map` keep the order of the items). -/
def parPairs {α : Type} (items : List α) : List (α × α) :=
  items.zipIdx.flatMap fun (item, i) => (items.drop i).map fun inner => (item, inner)

end Spf.Tri
