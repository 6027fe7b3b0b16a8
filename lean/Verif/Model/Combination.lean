/-! Model of `sunscreen_math/src/combination.rs`.

`usize` arithmetic is modelled by `Nat` (no overflow: the binomial coefficients are assumed to fit).  Where a `usize`
subtraction would underflow the Rust panics; the theorems show the subtractions below never do so on the
inputs they quantify over. -/
namespace Spf.Comb

/-- combination.rs:42-44: the product loop, after `i` iterations, with `m = n - k`. -/
def prodLoop (m : Nat) : Nat → Nat
  | 0 => 1
  | i + 1 => prodLoop m i * (m + (i + 1)) / (i + 1)

/-- combination.rs:17-47 `number_combinations`. -/
def numberCombinations (n k : Nat) : Nat :=
  if n < k then 0
  else if k = 0 then 1
  else if k = n then 1
  else
    let k := if k > n / 2 then n - k else k
    prodLoop (n - k) k

/-- combination.rs:79-86 `Combinations`. -/
structure Combinations where
  n : Nat
  t : Nat
  current : Option (List Nat)
  deriving Repr, DecidableEq

/-- combination.rs:64-73 `CombinationNewError`. -/
inductive NewError | zeroOptions | combinationTooLarge (n t : Nat)
  deriving Repr, DecidableEq

/-- combination.rs:51-60 `CombinationGetIndexError`. -/
inductive GetIndexError | incorrectLength (want got : Nat) | valueTooLarge (max got : Nat)
  deriving Repr, DecidableEq

/-- combination.rs:92-106 `Combinations::new`. -/
def Combinations.new (n t : Nat) : Except NewError Combinations :=
  if n = 0 then .error .zeroOptions
  else if t > n then .error (.combinationTooLarge n t)
  else .ok ⟨n, t, none⟩

/-- combination.rs:215-223: the `while i > 0` loop starting from `i`; returns the final `i`. -/
def findI (n t : Nat) (cur : List Nat) : Nat → Nat
  | 0 => 0
  | i + 1 => if cur.getD i 0 ≠ n - t + i then i else findI n t cur i

/-- combination.rs:198-240 `Iterator::next`: new state and item. -/
def Combinations.next (s : Combinations) : Combinations × Option (List Nat) :=
  match s.current with
  | none => ({ s with current := some (List.range s.t) }, some (List.range s.t))
  | some cur =>
    let i := findI s.n s.t cur s.t
    if s.t = 0 ∨ (i = 0 ∧ cur.getD i 0 = s.n - s.t) then (s, none)
    else
      let x := cur.getD i 0 + 1
      -- 235-237: current[j] = current[j-1] + 1 for j in i+1..t
      let cur' := cur.take i ++ List.range' x (s.t - i)
      ({ s with current := some cur' }, some cur')

/-- Calling `next` `k` times and collecting the `Some` items (a `for` loop stops at the first `None`). -/
def Combinations.collect : Nat → Combinations → List (List Nat)
  | 0, _ => []
  | k + 1, s =>
    match s.next with
    | (_, none) => []
    | (s', some c) => c :: Combinations.collect k s'

/-- combination.rs:144-147: `while item_in_check < item { index += …; item_in_check += 1 }`; `fuel = item - lo`. -/
def whileIndex (n kk : Nat) : Nat → Nat → Nat
  | _, 0 => 0
  | lo, fuel + 1 => numberCombinations (n - 1 - lo) kk + whileIndex n kk (lo + 1) fuel

/-- combination.rs:137-149: the `for` loop over the combination. `lo = item_in_check`. -/
def getIndexLoop (n k : Nat) : List Nat → Nat → Nat → Nat → Except GetIndexError Nat
  | [], _, _, index => .ok index
  | item :: rest, offset, lo, index =>
    if item > n - 1 then .error (.valueTooLarge (n - 1) item)
    else getIndexLoop n k rest (offset + 1) (max lo item + 1)
      (index + whileIndex n (k - (offset + 1)) lo (item - lo))

/-- combination.rs:123-152 `get_index`. -/
def Combinations.getIndex (s : Combinations) (c : List Nat) : Except GetIndexError Nat :=
  if c.length ≠ s.t then .error (.incorrectLength s.t c.length)
  else getIndexLoop s.n c.length c 0 0 0

/-- combination.rs:183-185: `while number_combinations(a, b) > x { a -= 1 }`; `none` = underflow panic. -/
def descend (b x : Nat) : Nat → Option Nat
  | 0 => if numberCombinations 0 b > x then none else some 0
  | a + 1 => if numberCombinations (a + 1) b > x then descend b x a else some (a + 1)

/-- combination.rs:181-189: the `for _ in 0..t` loop; `b` counts down from `t`, `a` is the value before `a -= 1`.
`none` = underflow panic. -/
def atIndexLoop (n : Nat) : Nat → Nat → Nat → Option (List Nat)
  | 0, _, _ => some []
  | b + 1, a, x =>
    if a = 0 then none
    else
      match descend (b + 1) x (a - 1) with
      | none => none
      | some a' =>
        match atIndexLoop n b a' (x - numberCombinations a' (b + 1)) with
        | none => none
        | some rest => some ((n - 1 - a') :: rest)

/-- combination.rs:171-192 `at_index`: outer `Option` is the panic, inner the returned `Option`. -/
def Combinations.atIndex (s : Combinations) (index : Nat) : Option (Option (List Nat)) :=
  if index ≥ numberCombinations s.n s.t then some none
  else (atIndexLoop s.n s.t s.n (numberCombinations s.n s.t - 1 - index)).map some

end Spf.Comb
