import Verif.Model.Gadget
/-! Model of GLWE keyswitching and of the homomorphic trace of `sunscreen_tfhe`. Conventions of `Model/Gadget`: random draws
are arguments, `none` = panic, products in the Fourier domain are exact and the rounding of the inverse transform is an
explicit argument (`fe`). -/
namespace Spf.Tfhe

variable {W : Nat}

/-- sunscreen_tfhe/src/ops/keyswitch/glwe_keyswitch_key.rs:57-67, the loop over the columns of row `i` from column `j`:
`s` is the key polynomial of the row, scaled into a fresh zero polynomial (line 58) by `polynomial_scalar_mul`. -/
def glweKskRow (N log : Nat) (s : List (BitVec W)) (sk : List (List (BitVec W))) (masks : Nat → List (List (BitVec W)))
    (noise : Nat → Option (List (BitVec W))) : Nat → List (Glwe (BitVec W)) → Option (List (Glwe (BitVec W)))
  | _, [] => some []
  | j, buf :: bufs =>
    match gadgetFactor W log j with
    | none => none
    | some f => match glweEncrypt N buf (polyScalarMul (List.replicate N 0) s f) sk (masks j) (noise j) with
      | none => none
      | some ct => match glweKskRow N log s sk masks noise (j + 1) bufs with
        | none => none
        | some cts => some (ct :: cts)

/-- glwe_keyswitch_key.rs:50-68, the loop over the rows from row `i`; `.nth(i).unwrap()` (53-54) panics beyond the key. -/
def glweKskRows (N log : Nat) (old sk : List (List (BitVec W))) (masks : Nat → Nat → List (List (BitVec W)))
    (noise : Nat → Nat → Option (List (BitVec W))) : Nat → List (List (Glwe (BitVec W))) → Option (List (List (Glwe (BitVec W))))
  | _, [] => some []
  | i, row :: rows =>
    match old[i]? with
    | none => none
    | some s => match glweKskRow N log s sk (masks i) (noise i) 0 row with
      | none => none
      | some r => match glweKskRows N log old sk masks noise (i + 1) rows with
        | none => none
        | some rs => some (r :: rs)

/-- sunscreen_tfhe/src/ops/keyswitch/glwe_keyswitch_key.rs:74-91 `generate_keyswitch_key_glwe` (32-69
`encrypt_keyswitch_key_generic`) into the buffer `buf`. -/
def glweKskGen (N : Nat) (r : Radix) (buf : List (List (Glwe (BitVec W)))) (old new : List (List (BitVec W)))
    (masks : Nat → Nat → List (List (BitVec W))) (noise : Nat → Nat → Option (List (BitVec W))) : Option (List (List (Glwe (BitVec W)))) :=
  glweKskRows N r.log old new masks noise 0 buf

/-- sunscreen_tfhe/src/ops/keyswitch/glwe_keyswitch.rs:26-55 `keyswitch_glwe_to_glwe` (every element of the output is
overwritten by the final subtraction). The loop over mask polynomials and GLev rows (43-47) is that of `glwe_ggsw_mad`. -/
def glweKeyswitch (k N : Nat) (r : Radix) (ct : Glwe (BitVec W)) (ksk : List (List (Glwe (BitVec W)))) : Option (Glwe (BitVec W)) :=
  match ggswMadLoop N r ct.a ksk (glweZero k N) with
  | none => none
  | some sum => match glweTrivial (glweZero k N) ct.b with
    | none => none
    | some t => glweSub t sum

/-- sunscreen_tfhe/src/ops/fft_ops.rs:457-495 `keyswitch_glwe_to_glwe`: the sum is accumulated in the Fourier domain and
rounded by the inverse transform (491); `fe` is the difference to the exact sum. -/
def glweKeyswitchFft (k N : Nat) (r : Radix) (fe ct : Glwe (BitVec W)) (ksk : List (List (Glwe (BitVec W)))) : Option (Glwe (BitVec W)) :=
  match ggswMadLoop N r ct.a ksk (glweZero k N) with
  | none => none
  | some exact => match glweAdd exact fe with
    | none => none
    | some sum => match glweTrivial (glweZero k N) ct.b with
      | none => none
      | some t => glweSub t sum

/-- sunscreen_tfhe/src/ops/automorphisms/mod.rs:38-40 with ops/polynomial/mod.rs:62-87 on key coefficients: `p * sign` is
the plain product of two machine integers, which panics on overflow when overflow checks are on (`checked`). -/
def keyPowK (checked : Bool) (pk p : List (BitVec W)) (k : Nat) : Option (List (BitVec W)) :=
  if checked = true ∧ ∃ i < p.length, i * k / p.length % 2 ≠ 0 ∧ ¬ (p.getD i 0).toNat * (-1 : BitVec W).toNat < 2 ^ W then none
  else polyPowK pk p k

/-- automorphisms/mod.rs:38-40, the loop over the key polynomials; `bufs` is the scratch key. -/
def keyPowKs (checked : Bool) (k : Nat) : List (List (BitVec W)) → List (List (BitVec W)) → Option (List (List (BitVec W)))
  | b :: bufs, s :: ss => match keyPowK checked b s k with
    | none => none
    | some q => match keyPowKs checked k bufs ss with
      | none => none
      | some qs => some (q :: qs)
  | bufs, _ => some bufs

/-- The exponent `poly_degree / (1 << (i - 1)) + 1` (automorphisms/mod.rs:36 and 73). -/
def traceExp (N i : Nat) : Nat := N / 2 ^ (i - 1) + 1

/-- automorphisms/mod.rs:35-43, the loop of `generate_automorphism_key` from `i` (the zip of `1..=ilog2(N)` with the
keyswitch keys): `last` is `ilog2 N`, `scratch` the scratch key, whose contents carry over. -/
def akLoop (checked : Bool) (N : Nat) (r : Radix) (last : Nat) (sk : List (List (BitVec W))) (masks : Nat → Nat → Nat → List (List (BitVec W)))
    (noise : Nat → Nat → Nat → Option (List (BitVec W))) :
    Nat → List (List (BitVec W)) → List (List (List (Glwe (BitVec W)))) → Option (List (List (List (Glwe (BitVec W)))))
  | _, _, [] => some []
  | i, scratch, buf :: bufs =>
    if last < i then some (buf :: bufs)
    else match keyPowKs checked (traceExp N i) scratch sk with
      | none => none
      | some skk => match glweKskGen N r buf skk sk (masks i) (noise i) with
        | none => none
        | some ksk => match akLoop checked N r last sk masks noise (i + 1) skk bufs with
          | none => none
          | some rest => some (ksk :: rest)

/-- sunscreen_tfhe/src/ops/automorphisms/mod.rs:18-44 `generate_automorphism_key` into the buffer `buf`; the size check
(26) requires `ilog2 N` keyswitch keys (entities/automorphism_key.rs:26-28). Checks of the shapes inside are left out. -/
def akGen (checked : Bool) (N : Nat) (r : Radix) (buf : List (List (List (Glwe (BitVec W))))) (scratch sk : List (List (BitVec W)))
    (masks : Nat → Nat → Nat → List (List (BitVec W))) (noise : Nat → Nat → Nat → Option (List (BitVec W))) :
    Option (List (List (List (Glwe (BitVec W))))) :=
  if r.valid W = true ∧ buf.length = Nat.log2 N then akLoop checked N r (Nat.log2 N) sk masks noise 1 scratch buf else none

/-- automorphisms/mod.rs:75-77, the mask polynomials of the transformed ciphertext, over the scratch ciphertext. -/
def powKs (k : Nat) : List (List (BitVec W)) → List (List (BitVec W)) → Option (List (List (BitVec W)))
  | b :: bufs, a :: as => match polyPowK b a k with
    | none => none
    | some q => match powKs k bufs as with
      | none => none
      | some qs => some (q :: qs)
  | bufs, _ => some bufs

/-- automorphisms/mod.rs:75-79: the ciphertext under `X -> X^k`, written over the scratch ciphertext. -/
def glwePowK (k : Nat) (scratch ct : Glwe (BitVec W)) : Option (Glwe (BitVec W)) :=
  match powKs k scratch.a ct.a, polyPowK scratch.b ct.b k with
  | some a, some b => some ⟨a, b⟩
  | _, _ => none

/-- automorphisms/mod.rs:72-84, the loop of `trace` from `i`; `scratch` is `glwe_k`, whose contents carry over; `fe i` is
the error of the inverse transform in step `i`. -/
def traceLoop (k N : Nat) (r : Radix) (last : Nat) (fe : Nat → Glwe (BitVec W)) :
    Nat → Glwe (BitVec W) → List (List (List (Glwe (BitVec W)))) → Glwe (BitVec W) → Option (Glwe (BitVec W))
  | _, _, [], out => some out
  | i, scratch, ksk :: ksks, out =>
    if last < i then some out
    else match glwePowK (traceExp N i) scratch out with
      | none => none
      | some gk => match glweKeyswitchFft k N r (fe i) gk ksk with
        | none => none
        | some sw => match glweAdd out sw with
          | none => none
          | some out => traceLoop k N r last fe (i + 1) gk ksks out

/-- sunscreen_tfhe/src/ops/automorphisms/mod.rs:53-85 `trace` (the output is overwritten at line 70). `scratch` is the
unspecified contents of the scratch ciphertext. -/
def trace (k N : Nat) (r : Radix) (fe : Nat → Glwe (BitVec W)) (scratch x : Glwe (BitVec W)) (ak : List (List (List (Glwe (BitVec W))))) :
    Option (Glwe (BitVec W)) :=
  if r.valid W = true ∧ ak.length = Nat.log2 N then traceLoop k N r (Nat.log2 N) fe 1 scratch ak x else none

end Spf.Tfhe
