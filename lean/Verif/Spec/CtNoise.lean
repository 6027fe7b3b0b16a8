import Verif.Model.CtExec
import Verif.Props.CircuitBootstrap
/-! Specification for circuits evaluated on ciphertexts: what it means for a ciphertext to hold a message up to a noise, the
value of a node of a circuit under any interpretation of the operators, and a static noise analysis (an interpretation of the
operators by noise bounds). -/
namespace Spf.Spec
open Spf.Fhe Spf.Tfhe Spf.CtExec

/-- The torus element that encodes a bit: one half, or zero. -/
def bitTorus (W : Nat) (b : Bool) : BitVec W := BitVec.ofNat W ((if b then 1 else 0) * 2 ^ (W - 1))

/-- The polynomial of degree below `N` with bit coefficients `p`, encoded. -/
def bitPoly (W N : Nat) (p : Nat → Bool) : List (BitVec W) := (List.range N).map fun i => bitTorus W (p i)

/-- A GLev ciphertext of the polynomial `msg`, up to `B`: the `t`-th of its `count` GLWE ciphertexts decrypts to `msg` times the
gadget factor `2^(W - log*(t+1))`. -/
def GlevHolds {W : Nat} (k N : Nat) (r : Radix) (sk : List (List (BitVec W))) (B : Nat) (msg : List (BitVec W)) (row : List (Glwe (BitVec W))) : Prop :=
  row.length = r.count ∧ ∀ t ct, row[t]? = some ct → ct.valid k N ∧
    ∃ y, glweDecrypt ct sk = some y ∧ NearPoly B y (msg.map (· * BitVec.ofNat W (2 ^ (W - r.log * (t + 1)))))

/-- A ciphertext holds a message under the level-0 key `s` and the level-1 key `sk`, up to the noise `B`. An LWE ciphertext
decrypts to the encoded bit; every coefficient of a GLWE ciphertext to the encoded bit; a GLev ciphertext holds the constant
polynomial; a GGSW ciphertext has one GLev row for each key polynomial `s_i`, which holds `-bit * s_i`, and one for the bit. -/
def CtHolds {W : Nat} (P : EvalParams) (s : List (BitVec W)) (sk : List (List (BitVec W))) (B : Nat) : Ct W → Val → Prop
  | .lwe0 c, .lwe0 b => ∃ x, lweDecrypt P.lweDim s c = some x ∧ Near B x (bitTorus W b)
  | .lwe1 c, .lwe1 b => ∃ x, lweDecrypt (P.glweSize * P.degree) (toLweKey sk) c = some x ∧ Near B x (bitTorus W b)
  | .glwe1 c, .glwe1 p => c.valid P.glweSize P.degree ∧ ∃ y, glweDecrypt c sk = some y ∧ NearPoly B y (bitPoly W P.degree p)
  | .glev1 c, .glev1 b => GlevHolds P.glweSize P.degree P.cbs sk B ((if b then 1 else 0) :: List.replicate (P.degree - 1) 0) c
  | .ggsw1 c, .ggsw1 b => List.Forall₂ (fun msg row => GlevHolds P.glweSize P.degree P.cbs sk B msg row)
      ((sk.map fun p => p.map fun x => if b then -x else 0) ++ [(if b then 1 else 0) :: List.replicate (P.degree - 1) 0]) c
  | _, _ => False

/-- `NodeEval exec g n v`: node `n` of the circuit, interpreted by `exec` after its operands, has the value `v`. (As `FEval`,
for any interpretation of the operators.) -/
inductive NodeEval {V : Type} (exec : FheOp → List (V × FheEdge) → Option V) (g : FGraph) : Nat → V → Prop
  | op {n op v} (f : Nat → V) : g.weight n = some op → (∀ e ∈ g.inEdges n, NodeEval exec g e.1 (f e.1)) →
      exec op ((g.inEdges n).map fun e => (f e.1, e.2.2)) = some v → NodeEval exec g n v

/-- Bounds: on the noise of the four parts of the compute key, on the error of an inverse Fourier transform, and the number of
ones in the level-0 key. -/
structure NoiseLevels where
  bsk : Nat
  ak : Nat
  ssk : Nat
  ksk : Nat
  fft : Nat
  ones : Nat

/-- the noise of a bootstrapped GGSW ciphertext (see `C83_circuit_bootstrap_partial`) -/
def bootNoise (W : Nat) (P : EvalParams) (ν : NoiseLevels) : Nat :=
  Props.switchedNoise W P.glweSize P.degree P.ss 1 (Props.circuitNoise W P.glweSize (Nat.log2 P.degree) P.lweDim P.pbs P.tr ν.bsk ν.ak ν.fft) ν.ssk

/-- the largest noise a bootstrap can remove is below this: a quarter of the torus, less the rounding of the modulus switch -/
def bootLimit (W : Nat) (P : EvalParams) (ν : NoiseLevels) : Nat :=
  2 ^ (W - 2) - (ν.ones + 1) * 2 ^ (W - (Nat.log2 P.degree + 1 - (ceilLog2 P.cbs.count).getD 0) - 1)

/-- the noise added by a multiplexer whose selector has noise `E` -/
def muxNoise (W : Nat) (P : EvalParams) (ν : NoiseLevels) (E : Nat) : Nat := Props.cmuxError W P.glweSize P.degree P.cbs 1 E ν.fft

/-- the noise added by the keyswitch from level 1 to level 0 -/
def ksNoise (W : Nat) (P : EvalParams) (ν : NoiseLevels) : Nat :=
  P.glweSize * P.degree * (2 ^ (W - P.ks.log * P.ks.count - 1) + P.ks.count * (2 ^ (P.ks.log - 1) * ν.ksk))

/-- the noise on an edge kind -/
def pickNoise (ins : List (Nat × FheEdge)) (k : FheEdge) : Option Nat := (ins.find? fun p => p.2 == k).map (·.1)

/-- Static noise analysis: a bound on the noise of the output of an operator from bounds on the noise of its inputs; `none` if a
bootstrap may fail. `cells` bounds the noise of the contents of the cells. -/
def noiseOp (W : Nat) (P : EvalParams) (ν : NoiseLevels) (cells : CtType → Nat → Nat) (op : FheOp) (ins : List (Nat × FheEdge)) : Option Nat :=
  match op, ins with
  | .input t c, [] => some (cells t c)
  | .zeroLwe0, [] | .oneLwe0, [] | .zeroGlwe1, [] | .oneGlwe1, [] | .zeroGlev1, [] | .oneGlev1, [] => some 0
  | .zeroGgsw1, [] | .oneGgsw1, [] => if 0 < bootLimit W P ν then some (bootNoise W P ν) else none
  | .output _ _, [(B, .unary)] | .sampleExtract _, [(B, .unary)] | .not, [(B, .unary)] | .mulXN _, [(B, .unary)] => some B
  | .keyswitchL1toL0, [(B, .unary)] => some (B + ksNoise W P ν)
  | .circuitBootstrap, [(B, .unary)] => if B < bootLimit W P ν then some (bootNoise W P ν) else none
  | .schemeSwitch, [(B, .unary)] => some (Props.switchedNoise W P.glweSize P.degree P.ss 1 B ν.ssk)
  | .glweAdd, [_, _] =>
    match pickNoise ins .left, pickNoise ins .right with
    | some a, some b => some (a + b)
    | _, _ => none
  | .cmux, [_, _, _] | .glevCmux, [_, _, _] =>
    match pickNoise ins .sel, pickNoise ins .low, pickNoise ins .high with
    | some s, some l, some h => some (max l h + muxNoise W P ν s)
    | _, _, _ => none
  | .multiplyGgswGlwe, [_, _] =>
    match pickNoise ins .glwe, pickNoise ins .ggsw with
    | some p, some s => some (p + muxNoise W P ν s)
    | _, _ => none
  | _, _ => none

/-- The conditions on the parameters: the degree is `2^n`; every radix is non-empty and leaves bits for rounding; the bootstrap
can pack the levels of the output radix (`v` is the binary logarithm, rounded up, of their number). -/
structure ParamsOk (W n v : Nat) (P : EvalParams) : Prop where
  width : W ≤ 64
  degree : P.degree = 2 ^ n
  lweDim : 0 < P.lweDim
  glweSize : 0 < P.glweSize
  pbs : 0 < P.pbs.log ∧ 0 < P.pbs.count ∧ P.pbs.log * P.pbs.count < W
  tr : 0 < P.tr.log ∧ 0 < P.tr.count ∧ P.tr.log * P.tr.count < W
  ss : 0 < P.ss.log ∧ 0 < P.ss.count ∧ P.ss.log * P.ss.count < W
  ks : 0 < P.ks.log ∧ 0 < P.ks.count ∧ P.ks.log * P.ks.count < W
  cbs : 0 < P.cbs.log ∧ 0 < P.cbs.count ∧ P.cbs.log * P.cbs.count + 1 < W
  levels : P.cbs.count < 8 ∧ ceilLog2 P.cbs.count = some v ∧ v + 1 ≤ n ∧ n + 1 < W

/-- Floating-point errors bounded by `F`; scratch memory of the right shape (its contents do not matter). -/
structure ErrOk {W : Nat} (P : EvalParams) (n F : Nat) (e : OpErr W) : Prop where
  out : ∀ i, FftErr P.glweSize (2 ^ n) F (e.out i)
  pbs : ∀ i, FftErr P.glweSize (2 ^ n) F (e.pbs i)
  trace : ∀ h i, FftErr P.glweSize (2 ^ n) F (e.trace h i)
  junk : ∀ i, (e.junk i).valid P.glweSize (2 ^ n)

/-- The draws of a key generation: masks of the right shape (otherwise arbitrary), noise within the bounds `ν`. -/
structure DrawsOk {W : Nat} (P : EvalParams) (n : Nat) (ν : NoiseLevels) (D : KeyDraws W) : Prop where
  bskMask : ∀ h i j, Props.KeyFor (D.bskMask h i j) P.glweSize (2 ^ n)
  bskNoise : ∀ h i j, NoiseOk (2 ^ n) ν.bsk (D.bskNoise h i j)
  akMask : ∀ h i j, Props.KeyFor (D.akMask h i j) P.glweSize (2 ^ n)
  akNoise : ∀ h i j, NoiseOk (2 ^ n) ν.ak (D.akNoise h i j)
  scratch : Props.KeyFor D.scratch P.glweSize (2 ^ n)
  sskMask : ∀ i j, Props.KeyFor (D.sskMask i j) P.glweSize (2 ^ n)
  sskNoise : ∀ i j, NoiseOk (2 ^ n) ν.ssk (D.sskNoise i j)
  kskMask : ∀ i j, (D.kskMask i j).length = P.lweDim
  kskNoise : ∀ i j, (D.kskNoise i j).natAbs ≤ ν.ksk

/-- The secret keys: `s` are the bits of the level-0 key, `sk` the polynomials of the level-1 key, with binary coefficients. -/
structure SecretOk {W : Nat} (P : EvalParams) (n : Nat) (ν : NoiseLevels) (s : List Bool) (sk : List (List (BitVec W))) : Prop where
  len : s.length = P.lweDim
  ones : s.count true ≤ ν.ones
  key : Props.KeyFor sk P.glweSize (2 ^ n)
  bin : ∀ p ∈ sk, ∀ x ∈ p, x = 0 ∨ x = 1

/-- `c` is a fresh encryption of `m` by the client under the secret keys, with noise at most `E`. -/
def CtEncrypts {W : Nat} (P : EvalParams) (s : List (BitVec W)) (sk : List (List (BitVec W))) (E : Nat) : Val → Ct W → Prop
  | .lwe0 b, .lwe0 c => ∃ mask noise, mask.length = P.lweDim ∧ noise.natAbs ≤ E ∧ clientEncLwe P.lweDim s b mask noise = some c
  | .lwe1 b, .lwe1 c => ∃ mask noise, mask.length = P.glweSize * P.degree ∧ noise.natAbs ≤ E ∧
      clientEncLwe (P.glweSize * P.degree) (toLweKey sk) b mask noise = some c
  | .glwe1 p, .glwe1 c => ∃ mask noise, Props.KeyFor mask P.glweSize P.degree ∧ NoiseOk P.degree E noise ∧
      clientEncGlwe P sk ((List.range P.degree).map fun i => if p i then 1 else 0) mask noise = some c
  | .glev1 b, .glev1 c => ∃ mask noise, (∀ j, Props.KeyFor (mask j) P.glweSize P.degree) ∧ (∀ j, NoiseOk P.degree E (noise j)) ∧
      clientEncGlev P sk b mask noise = some c
  | .ggsw1 b, .ggsw1 c => ∃ mask noise, (∀ i j, Props.KeyFor (mask i j) P.glweSize P.degree) ∧ (∀ i j, NoiseOk P.degree E (noise i j)) ∧
      clientEncGgsw P sk b mask noise = some c
  | _, _ => False

/-- The client decrypts `c` to `m`. -/
def CtDecrypts {W : Nat} (P : EvalParams) (s : List (BitVec W)) (sk : List (List (BitVec W))) : Ct W → Val → Prop
  | .lwe0 c, .lwe0 b => clientDecLwe P.lweDim s c = some b
  | .lwe1 c, .lwe1 b => clientDecLwe (P.glweSize * P.degree) (toLweKey sk) c = some b
  | .glwe1 c, .glwe1 p => clientDecGlwe sk c = some ((List.range P.degree).map fun i => if p i then 1 else 0)
  | .glev1 c, .glev1 b => clientDecGlev P sk c = some ((if b then 1 else 0) :: List.replicate (P.degree - 1) 0)
  | .ggsw1 c, .ggsw1 b => clientDecGgsw P sk c = some b
  | _, _ => False

/-- Noise below this does not change what the client decrypts: a quarter of the torus for bits encoded at the top, half the
first gadget factor for GLev and GGSW ciphertexts. -/
def decryptLimit (W : Nat) (P : EvalParams) : Val → Nat
  | .lwe0 _ | .lwe1 _ | .glwe1 _ => 2 ^ (W - 2)
  | .glev1 _ | .ggsw1 _ => 2 ^ (W - P.cbs.log - 1)

end Spf.Spec
