import Verif.Model.Gadget
import Verif.Model.TriPairs
/-! Model of scheme switching (GLev to GGSW) of `sunscreen_tfhe`. Conventions of `Model/Gadget`. -/
namespace Spf.Tfhe

variable {W : Nat}

/-- sunscreen_tfhe/src/entities/scheme_switch_key.rs:15-17 `triangular_number_entries`. -/
def triangularEntries (n : Nat) : Nat := n * (n + 1) / 2

/-- sunscreen_tfhe/src/entities/scheme_switch_key.rs:21-30 `get_linear_index` (the subtractions of line 29 panic on
underflow with overflow checks; the theorem shows that they never underflow). -/
def linearIndex (i j n : Nat) : Option Nat :=
  if i < n ∧ j < n then
    let row := if i ≤ j then i else j
    let col := if i ≤ j then j else i
    some (n * (n + 1) / 2 - (n - row) * ((n - row) + 1) / 2 + col - row)
  else none

/-- scheme_switch_key.rs:131-144 `get_glev_at_index`; `d` is the number of key polynomials. -/
def getGlev (d : Nat) (ssk : List (List (Glwe (BitVec W)))) (i j : Nat) : Option (List (Glwe (BitVec W))) :=
  match linearIndex i j d with
  | none => none
  | some t => ssk[t]?

/-- sunscreen_tfhe/src/ops/bootstrapping/scheme_switch.rs:46-63, the loop over the zip of the triangular pairs with the
GLev ciphertexts of the key, from ciphertext number `t`. The product `s_i * s_j` (49-59) goes through a Fourier transform;
its coefficients are small integers and the model takes the rounded result to be the exact product. -/
def sskLoop (N : Nat) (r : Radix) (sk : List (List (BitVec W))) (masks : Nat → Nat → List (List (BitVec W)))
    (noise : Nat → Nat → Option (List (BitVec W))) :
    Nat → Tri.Pairs (List (BitVec W)) → List (List (Glwe (BitVec W))) → Option (List (List (Glwe (BitVec W))))
  | _, _, [] => some []
  | t, it, buf :: bufs =>
    match it.next with
    | none => none
    | some (none, _) => some (buf :: bufs)
    | some (some (si, sj), it) => match polyMad (List.replicate N 0) si sj with
      | none => none
      | some p => match glevEncrypt N r buf p sk (masks t) (noise t) with
        | none => none
        | some glev => match sskLoop N r sk masks noise (t + 1) it bufs with
          | none => none
          | some rest => some (glev :: rest)

/-- sunscreen_tfhe/src/ops/bootstrapping/scheme_switch.rs:22-64 `generate_scheme_switch_key` into the buffer `buf`, whose
size is checked (36). -/
def sskGen (d N : Nat) (r : Radix) (buf : List (List (Glwe (BitVec W)))) (sk : List (List (BitVec W)))
    (masks : Nat → Nat → List (List (BitVec W))) (noise : Nat → Nat → Option (List (BitVec W))) : Option (List (List (Glwe (BitVec W)))) :=
  if r.valid W = true ∧ buf.length = triangularEntries d ∧ sk.length = d then sskLoop N r sk masks noise 0 (Tri.Pairs.new sk) buf else none

/-- scheme_switch.rs:308-317 (and fft_ops.rs:271-278), the loop over the mask polynomials `a_i_r` from index `ri`: add
`<decomp(a_i_r), GLev(s_j * s_r)>`. -/
def ssMadLoop (d N : Nat) (r : Radix) (ssk : List (List (Glwe (BitVec W)))) (j : Nat) :
    Nat → List (List (BitVec W)) → Glwe (BitVec W) → Option (Glwe (BitVec W))
  | _, [], y => some y
  | ri, a :: as, y =>
    match polyDigits a r with
    | none => none
    | some ds => match getGlev d ssk j ri with
      | none => none
      | some glev => match glevMad ds (List.replicate N 0) glev.reverse y with
        | none => none
        | some y => ssMadLoop d N r ssk j (ri + 1) as y

/-- sunscreen_tfhe/src/entities/glwe_ciphertext.rs:190-208 `fill_a_at_index`. -/
def fillA (d N : Nat) (c : Glwe (BitVec W)) (p : List (BitVec W)) (idx : Nat) : Option (Glwe (BitVec W)) :=
  if idx < d ∧ p.length = N then some ⟨c.a.set idx p, c.b⟩ else none

/-- sunscreen_tfhe/src/entities/glwe_ciphertext.rs:166-173 `zero_out_a_at_index`. -/
def zeroA (d N : Nat) (c : Glwe (BitVec W)) (idx : Nat) : Option (Glwe (BitVec W)) :=
  if idx < d then some ⟨c.a.set idx (List.replicate N 0), c.b⟩ else none

/-- scheme_switch.rs:291-318, one output row `j < k`: the zip of the input GLWE ciphertexts with those of the row; `enc` is
`encoded_b_i`, which is carried along; the output is overwritten by it (303). -/
def ssRow (d N : Nat) (r : Radix) (ssk : List (List (Glwe (BitVec W)))) (j : Nat) :
    List (Glwe (BitVec W)) → List (Glwe (BitVec W)) → Glwe (BitVec W) → Option (List (Glwe (BitVec W)) × Glwe (BitVec W))
  | x :: xs, _ :: ys, enc =>
    match fillA d N enc x.b j with
    | none => none
    | some enc => match ssMadLoop d N r ssk j 0 x.a enc with
      | none => none
      | some y => match ssRow d N r ssk j xs ys enc with
        | none => none
        | some (rest, enc) => some (y :: rest, enc)
  | _, ys, enc => some (ys, enc)

/-- scheme_switch.rs:279-319, the loop over the output rows from row `j`; the last row is the input (281-284). -/
def ssRows (d N : Nat) (r : Radix) (ssk : List (List (Glwe (BitVec W)))) (glev : List (Glwe (BitVec W))) :
    Nat → List (List (Glwe (BitVec W))) → Glwe (BitVec W) → Option (List (List (Glwe (BitVec W))))
  | _, [], _ => some []
  | j, row :: rows, enc =>
    if j = d then
      match ssRows d N r ssk glev (j + 1) rows enc with
      | none => none
      | some rest => some (zipAssign (fun _ x => x) row glev :: rest)
    else match zeroA d N enc (((j : Int) - 1) % (d : Int)).toNat with
      | none => none
      | some enc => match ssRow d N r ssk j glev row enc with
        | none => none
        | some (y, enc) => match ssRows d N r ssk glev (j + 1) rows enc with
          | none => none
          | some rest => some (y :: rest)

/-- sunscreen_tfhe/src/ops/bootstrapping/scheme_switch.rs:254-320 `scheme_switch` into the buffer `out`; the sizes are
checked (264-266). -/
def schemeSwitch (d N : Nat) (rg rs : Radix) (out : List (List (Glwe (BitVec W)))) (glev : List (Glwe (BitVec W)))
    (ssk : List (List (Glwe (BitVec W)))) : Option (List (List (Glwe (BitVec W)))) :=
  if ssk.length = triangularEntries d ∧ out.length = d + 1 ∧ (∀ row ∈ out, row.length = rg.count) ∧ glev.length = rg.count then
    ssRows d N rs ssk glev 0 out (glweZero d N)
  else none

/-- sunscreen_tfhe/src/ops/fft_ops.rs:245-279 `scheme_switch_glwe_operation` on the output GLWE ciphertext `y`, with exact
products; the output is kept in the Fourier domain, so nothing is rounded here. Only the mask polynomial `j` of the output
is overwritten (225-241), everything else is accumulated into. -/
def ssFftOp (d N : Nat) (r : Radix) (ssk : List (List (Glwe (BitVec W)))) (j : Nat) (y x : Glwe (BitVec W)) : Option (Glwe (BitVec W)) :=
  if j = d then some ⟨zipAssign (fun _ p => p) y.a x.a, x.b⟩
  else match fillA d N y x.b j with
    | none => none
    | some y => ssMadLoop d N r ssk j 0 x.a y

/-- fft_ops.rs:420-441 for one row: the zip of the GLWE ciphertexts of the row with those of the input. -/
def ssFftRow (d N : Nat) (r : Radix) (ssk : List (List (Glwe (BitVec W)))) (j : Nat) :
    List (Glwe (BitVec W)) → List (Glwe (BitVec W)) → Option (List (Glwe (BitVec W)))
  | y :: ys, x :: xs =>
    match ssFftOp d N r ssk j y x with
    | none => none
    | some y => match ssFftRow d N r ssk j ys xs with
      | none => none
      | some rest => some (y :: rest)
  | ys, _ => some ys

/-- fft_ops.rs:420-441, the rows from row `j`. -/
def ssFftRows (d N : Nat) (r : Radix) (ssk : List (List (Glwe (BitVec W)))) (glev : List (Glwe (BitVec W))) :
    Nat → List (List (Glwe (BitVec W))) → Option (List (List (Glwe (BitVec W))))
  | _, [] => some []
  | j, row :: rows =>
    match ssFftRow d N r ssk j row glev with
    | none => none
    | some y => match ssFftRows d N r ssk glev (j + 1) rows with
      | none => none
      | some rest => some (y :: rest)

/-- sunscreen_tfhe/src/ops/fft_ops.rs:403-442 `scheme_switch_fft` into the buffer `out`; the sizes are checked
(413-415). -/
def schemeSwitchFft (d N : Nat) (rg rs : Radix) (out : List (List (Glwe (BitVec W)))) (glev : List (Glwe (BitVec W)))
    (ssk : List (List (Glwe (BitVec W)))) : Option (List (List (Glwe (BitVec W)))) :=
  if ssk.length = triangularEntries d ∧ out.length = d + 1 ∧ (∀ row ∈ out, row.length = rg.count) ∧ glev.length = rg.count then
    ssFftRows d N rs ssk glev 0 out
  else none

end Spf.Tfhe
