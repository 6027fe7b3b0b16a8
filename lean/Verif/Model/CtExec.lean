import Verif.Model.FheGraph
import Verif.Model.Sched
import Verif.Model.CircuitBootstrap
import Verif.Model.BlindRot
import Verif.Model.GlevDec
/-! Model of the evaluation of FHE operators on ciphertexts (`parasol_runtime/src/circuit_processor/mod.rs`,
`parasol_runtime/src/crypto/{evaluation,encryption,keys}.rs`): `Model/FheGraph.execOp` says what an operator does to messages,
`execCt` here what it does to ciphertexts. Torus elements are `BitVec W` (`u64` in the code). Fourier-domain ciphertexts are
represented by the ciphertexts they are transforms of; the rounding of floating-point transforms enters as `OpErr`. `none` =
panic or runtime error. -/
namespace Spf.CtExec
open Spf.Tfhe Spf.Fhe

/-- parasol_runtime/src/params.rs:58-84 `Params`, without the standard deviations (noise is an argument) and without the
unused `pfks_radix`. -/
structure EvalParams where
  /-- `l0_params.dim` -/
  lweDim : Nat
  /-- `l1_params.dim.size` -/
  glweSize : Nat
  /-- `l1_params.dim.polynomial_degree` -/
  degree : Nat
  cbs : Radix
  pbs : Radix
  ks : Radix
  ss : Radix
  tr : Radix

/-- parasol_runtime/src/crypto/keys.rs:147-159 `ComputeKeyNonFft` (and its transform `ComputeKey`, keys.rs:255-330). -/
structure EvalKey (W : Nat) where
  bsk : List (List (List (Glwe (BitVec W))))
  ak : List (List (List (Glwe (BitVec W))))
  ssk : List (List (Glwe (BitVec W)))
  ksk : List (List (Lwe (BitVec W)))

/-- A ciphertext: parasol_runtime/src/crypto/ciphertext.rs:26-33 `Ciphertext`. -/
inductive Ct (W : Nat)
  | lwe0 (c : Lwe (BitVec W)) | lwe1 (c : Lwe (BitVec W)) | glwe1 (c : Glwe (BitVec W))
  | ggsw1 (c : List (List (Glwe (BitVec W)))) | glev1 (c : List (Glwe (BitVec W)))

/-- kind of a ciphertext (parasol_runtime/src/crypto/ciphertext.rs:47-65). -/
def Ct.type {W : Nat} : Ct W → CtType
  | .lwe0 _ => .lwe0 | .lwe1 _ => .lwe1 | .glwe1 _ => .glwe1 | .ggsw1 _ => .ggsw1 | .glev1 _ => .glev1

/-- The floating-point errors of one execution of an operator: `out` of the CMUXes or of the product
(sunscreen_tfhe/src/ops/fft_ops.rs:178, parasol_runtime/src/crypto/evaluation.rs:116), `pbs` of the steps of the bootstrap,
`trace` of the keyswitches of the traces; `junk` is the uninitialised scratch memory of the traces. -/
structure OpErr (W : Nat) where
  out : Nat → Glwe (BitVec W)
  pbs : Nat → Glwe (BitVec W)
  trace : Nat → Nat → Glwe (BitVec W)
  junk : Nat → Glwe (BitVec W)

variable {W : Nat}

/-- parasol_runtime/src/crypto/encryption.rs:152-155 `allocate_ggsw_l1`. -/
def allocGgsw (W : Nat) (P : EvalParams) : List (List (Glwe (BitVec W))) :=
  List.replicate (P.glweSize + 1) (List.replicate P.cbs.count (glweZero P.glweSize P.degree))

/-- parasol_runtime/src/crypto/encryption.rs:162-165 `allocate_glev_l1`. -/
def allocGlev (W : Nat) (P : EvalParams) : List (Glwe (BitVec W)) := List.replicate P.cbs.count (glweZero P.glweSize P.degree)

/-- the plaintext polynomial `0` or `1` (parasol_runtime/src/crypto/encryption.rs:345-364, 446-451): writing the constant
coefficient of an empty polynomial panics. -/
def constMsg (W : Nat) (P : EvalParams) (b : Bool) : Option (List (BitVec W)) :=
  if P.degree = 0 then none else some ((if b then 1 else 0) :: List.replicate (P.degree - 1) 0)

/-- parasol_runtime/src/crypto/encryption.rs:386-408 `trivial_lwe_l0_zero`, `trivial_lwe_l0_one` with
sunscreen_tfhe/src/high_level.rs:530-540 `trivial_lwe`. -/
def trivialLwe0 (P : EvalParams) (b : Bool) : Option (Lwe (BitVec W)) :=
  match encode (if b then 1#W else 0#W) 1 with
  | none => none
  | some m => lweTrivial P.lweDim (lweZero P.lweDim) m

/-- parasol_runtime/src/crypto/encryption.rs:345-377 `trivial_glwe_l1_zero`, `trivial_glwe_l1_one` with
sunscreen_tfhe/src/high_level.rs:658-679 `trivial_glwe`. -/
def trivialGlwe1 (P : EvalParams) (b : Bool) : Option (Glwe (BitVec W)) :=
  match constMsg W P b with
  | none => none
  | some m => match encodePoly m 1 with
    | none => none
    | some e => some ⟨List.replicate P.glweSize (List.replicate P.degree 0), e⟩

/-- parasol_runtime/src/crypto/encryption.rs:434-452 `trivial_glev_l1_zero` (zero memory), `trivial_glev_l1_one` with
sunscreen_tfhe/src/high_level.rs:778-788 `trivial_binary_glev`. -/
def trivialGlev1 (P : EvalParams) (b : Bool) : Option (List (Glwe (BitVec W))) :=
  if b then
    match constMsg W P true with
    | none => none
    | some m => glevTrivial P.degree P.cbs (allocGlev W P) m
  else some (allocGlev W P)

/-- parasol_runtime/src/crypto/evaluation.rs:206-220 `circuit_bootstrap`, into a fresh output. -/
def bootstrapCt (P : EvalParams) (K : EvalKey W) (e : OpErr W) (c : Lwe (BitVec W)) : Option (List (List (Glwe (BitVec W)))) :=
  circuitBootstrap P.lweDim P.glweSize P.degree P.pbs P.tr P.ss P.cbs e.pbs e.trace e.junk (allocGgsw W P) c K.bsk K.ak K.ssk

/-- parasol_runtime/src/crypto/evaluation.rs:97-118 `multiply_glwe_ggsw`; `fe` is the error of the inverse transform. -/
def multiplyCt (P : EvalParams) (fe : Glwe (BitVec W)) (glwe : Glwe (BitVec W)) (ggsw : List (List (Glwe (BitVec W)))) : Option (Glwe (BitVec W)) :=
  match externalProduct P.glweSize P.degree P.cbs ggsw glwe with
  | none => none
  | some exact => glweAdd exact fe

/-- the (unique) input on an edge kind (`task.inputs.iter().find(..)`, parasol_runtime/src/circuit_processor/mod.rs:371-375). -/
def pickCt (ins : List (Ct W × FheEdge)) (k : FheEdge) : Option (Ct W) := (ins.find? fun p => p.2 == k).map (·.1)

/-- parasol_runtime/src/circuit_processor/mod.rs:255-546 `exec_op`, preceded by task.rs:31-178 `validate`: the ciphertext an
operator computes from its inputs. `cells` are the contents of the shared cells; for output operators the result is the
ciphertext written. `err` gives the floating-point errors; they may depend on the operator and its inputs, but the same
operator on the same inputs makes the same errors. The GGSW constants are those of `Evaluation::new`
(crypto/evaluation.rs:157-187), bootstrapped from trivial ciphertexts. `not` is the addition of a trivial ciphertext of the
polynomial 1 (crypto/evaluation.rs:48-50). `glweAdd` adds its operands in the order of arrival; here left plus right. -/
def execCt (P : EvalParams) (K : EvalKey W) (err : FheOp → List (Ct W × FheEdge) → OpErr W) (cells : CtType → Nat → Ct W) (op : FheOp)
    (ins : List (Ct W × FheEdge)) : Option (Ct W) :=
  match op, ins with
  | .input t c, [] => some (cells t c)
  | .zeroLwe0, [] => (trivialLwe0 P false).map .lwe0
  | .oneLwe0, [] => (trivialLwe0 P true).map .lwe0
  | .zeroGlwe1, [] => (trivialGlwe1 P false).map .glwe1
  | .oneGlwe1, [] => (trivialGlwe1 P true).map .glwe1
  | .zeroGgsw1, [] => ((trivialLwe0 P false).bind (bootstrapCt P K (err .zeroGgsw1 []))).map .ggsw1
  | .oneGgsw1, [] => ((trivialLwe0 P true).bind (bootstrapCt P K (err .oneGgsw1 []))).map .ggsw1
  | .zeroGlev1, [] => (trivialGlev1 P false).map .glev1
  | .oneGlev1, [] => (trivialGlev1 P true).map .glev1
  | .output t _, [(v, .unary)] => if v.type = t then some v else none
  | .sampleExtract i, [(.glwe1 c, .unary)] => if i < P.degree then (sampleExtract P.degree i c).map .lwe1 else none
  | .keyswitchL1toL0, [(.lwe1 c, .unary)] => (keyswitch (P.glweSize * P.degree) P.lweDim P.ks c K.ksk).map .lwe0
  | .circuitBootstrap, [(.lwe0 c, .unary)] => (bootstrapCt P K (err .circuitBootstrap [(.lwe0 c, .unary)]) c).map .ggsw1
  | .schemeSwitch, [(.glev1 c, .unary)] => (schemeSwitchFft P.glweSize P.degree P.cbs P.ss (allocGgsw W P) c K.ssk).map .ggsw1
  | .not, [(.glwe1 c, .unary)] => ((trivialGlwe1 P true).bind (glweAdd c)).map .glwe1
  | .mulXN n, [(.glwe1 c, .unary)] => (glweMonomial c (n : Int)).map .glwe1
  | .glweAdd, [_, _] =>
    match pickCt ins .left, pickCt ins .right with
    | some (.glwe1 p), some (.glwe1 q) => (glweAdd p q).map .glwe1
    | _, _ => none
  | .cmux, [_, _, _] =>
    match pickCt ins .sel, pickCt ins .low, pickCt ins .high with
    | some (.ggsw1 s), some (.glwe1 l), some (.glwe1 h) => (cmux P.glweSize P.degree P.cbs ((err .cmux ins).out 0) l h s).map .glwe1
    | _, _, _ => none
  | .glevCmux, [_, _, _] =>
    match pickCt ins .sel, pickCt ins .low, pickCt ins .high with
    | some (.ggsw1 s), some (.glev1 l), some (.glev1 h) => (glevCmux P.glweSize P.degree P.cbs (err .glevCmux ins).out s 0 l h).map .glev1
    | _, _, _ => none
  | .multiplyGgswGlwe, [_, _] =>
    match pickCt ins .glwe, pickCt ins .ggsw with
    | some (.glwe1 p), some (.ggsw1 b) => (multiplyCt P ((err .multiplyGgswGlwe ins).out 0) p b).map .glwe1
    | _, _ => none
  | _, _ => none

/-- The dispatch of an operator by the circuit processor (parasol_runtime/src/circuit_processor/mod.rs:255-546 with `validate`,
task.rs:26-31), for any interpretation `ex` of the operators: an isolated `nop` does nothing; an operator that lacks an input
fails; output operators write their cell and produce no ciphertext for other tasks. -/
def liftExec {V : Type} (ex : (CtType → Nat → V) → FheOp → List (V × FheEdge) → Option V) : Sched.Exec FheOp V Sched.RtErr (CtType × Nat) FheEdge :=
  fun op cells ins =>
    if op = .nop ∧ ins.isEmpty then .ok (none, none)
    else match ins.mapM (fun p => p.1.map fun v => (v, p.2)) with
      | none => .error (.op op)
      | some ins =>
        match ex (fun t c => cells (t, c)) op ins with
        | none => .error (.op op)
        | some v => match op with
          | .output t c => .ok (none, some ((t, c), v))
          | _ => .ok (some v, none)

/-! ### keys -/

/-- The random draws of the generation of a compute key, and the contents of uninitialised scratch memory. -/
structure KeyDraws (W : Nat) where
  bskMask : Nat → Nat → Nat → List (List (BitVec W))
  bskNoise : Nat → Nat → Nat → Option (List Int)
  akMask : Nat → Nat → Nat → List (List (BitVec W))
  akNoise : Nat → Nat → Nat → Option (List Int)
  scratch : List (List (BitVec W))
  sskMask : Nat → Nat → List (List (BitVec W))
  sskNoise : Nat → Nat → Option (List Int)
  kskMask : Nat → Nat → List (BitVec W)
  kskNoise : Nat → Nat → Int

/-- Noise as torus elements: `normal_torus` rounds a real number to the nearest torus element
(sunscreen_tfhe/src/rand.rs:20-30). -/
def torusNoise (W : Nat) (e : Option (List Int)) : Option (List (BitVec W)) := e.map fun l => l.map (BitVec.ofInt W)

/-- parasol_runtime/src/crypto/keys.rs:207-250 `ComputeKeyNonFft::generate` for the secret keys `s` (level 0) and `sk`
(level 1), into fresh memory. `checked`: built with overflow checks. -/
def computeKeyGen (checked : Bool) (P : EvalParams) (s : List (BitVec W)) (sk : List (List (BitVec W))) (D : KeyDraws W) : Option (EvalKey W) :=
  match bskGen P.lweDim P.glweSize P.degree P.pbs
      (List.replicate P.lweDim (List.replicate (P.glweSize + 1) (List.replicate P.pbs.count (glweZero P.glweSize P.degree)))) s sk
      D.bskMask (fun h i j => torusNoise W (D.bskNoise h i j)),
    kskGen checked (P.glweSize * P.degree) P.lweDim P.ks
      (List.replicate (P.glweSize * P.degree) (List.replicate P.ks.count (lweZero P.lweDim))) (toLweKey sk) s D.kskMask
      (fun i j => BitVec.ofInt W (D.kskNoise i j)),
    sskGen P.glweSize P.degree P.ss
      (List.replicate (P.glweSize * (P.glweSize + 1) / 2) (List.replicate P.ss.count (glweZero P.glweSize P.degree))) sk
      D.sskMask (fun i j => torusNoise W (D.sskNoise i j)),
    akGen checked P.degree P.tr
      (List.replicate (Nat.log2 P.degree) (List.replicate P.glweSize (List.replicate P.tr.count (glweZero P.glweSize P.degree)))) D.scratch sk
      D.akMask (fun h i j => torusNoise W (D.akNoise h i j)) with
  | some bsk, some ksk, some ssk, some ak => some ⟨bsk, ak, ssk, ksk⟩
  | _, _, _, _ => none

/-! ### the client -/

/-- parasol_runtime/src/crypto/encryption.rs:168-173 `encrypt_lwe_l0_secret` (`sk` the level-0 key, `n` its dimension) and
176-186 `encrypt_lwe_l1_secret` (the flattened level-1 key). -/
def clientEncLwe (n : Nat) (sk : List (BitVec W)) (b : Bool) (mask : List (BitVec W)) (noise : Int) : Option (Lwe (BitVec W)) :=
  match encode (if b then 1#W else 0#W) 1 with
  | none => none
  | some m => lweEncrypt n (lweZero n) sk m mask (BitVec.ofInt W noise)

/-- parasol_runtime/src/crypto/encryption.rs:189-197 `encrypt_glwe_l1_secret`. -/
def clientEncGlwe (P : EvalParams) (sk : List (List (BitVec W))) (poly : List (BitVec W)) (mask : List (List (BitVec W))) (noise : Option (List Int)) :
    Option (Glwe (BitVec W)) :=
  match encodePoly poly 1 with
  | none => none
  | some m => glweEncrypt P.degree (glweZero P.glweSize P.degree) m sk mask (torusNoise W noise)

/-- parasol_runtime/src/crypto/encryption.rs:220-232 `encrypt_glev_l1_secret` with
sunscreen_tfhe/src/high_level.rs:748-768 `encrypt_binary_msg_secret_glev`, for a constant polynomial. -/
def clientEncGlev (P : EvalParams) (sk : List (List (BitVec W))) (b : Bool) (mask : Nat → List (List (BitVec W))) (noise : Nat → Option (List Int)) :
    Option (List (Glwe (BitVec W))) :=
  match constMsg W P b with
  | none => none
  | some m => glevEncrypt P.degree P.cbs (allocGlev W P) m sk mask fun j => torusNoise W (noise j)

/-- parasol_runtime/src/crypto/encryption.rs:251-271 `encrypt_ggsw_l1_secret`. -/
def clientEncGgsw (P : EvalParams) (sk : List (List (BitVec W))) (b : Bool) (mask : Nat → Nat → List (List (BitVec W)))
    (noise : Nat → Nat → Option (List Int)) : Option (List (List (Glwe (BitVec W)))) :=
  ggswEncryptScalar P.degree P.cbs 1 (allocGgsw W P) (if b then 1 else 0) sk mask fun i j => torusNoise W (noise i j)

/-- parasol_runtime/src/crypto/encryption.rs:274-281 `decrypt_lwe_l0`, 284-291 `decrypt_lwe_l1`: the decoded bit. -/
def clientDecLwe (n : Nat) (sk : List (BitVec W)) (c : Lwe (BitVec W)) : Option Bool :=
  match lweDecrypt n sk c with
  | none => none
  | some x => match decode x 1 with
    | none => none
    | some y => some (y == 1#W)

/-- parasol_runtime/src/crypto/encryption.rs:294-310 `decrypt_ggsw_l1` (on the exact inverse transform). -/
def clientDecGgsw (P : EvalParams) (sk : List (List (BitVec W))) (g : List (List (Glwe (BitVec W)))) : Option Bool :=
  match ggswDecrypt P.glweSize P.cbs g sk with
  | none => none
  | some y => match y with
    | [] => none
    | x :: _ => some (x == 1#W)

/-- parasol_runtime/src/crypto/encryption.rs:313-320 `decrypt_glwe_l1`. -/
def clientDecGlwe (sk : List (List (BitVec W))) (c : Glwe (BitVec W)) : Option (List (BitVec W)) := glweDecryptDecode c sk 1

/-- parasol_runtime/src/crypto/encryption.rs:323-335 `decrypt_glev_l1`. -/
def clientDecGlev (P : EvalParams) (sk : List (List (BitVec W))) (c : List (Glwe (BitVec W))) : Option (List (BitVec W)) := glevDecrypt P.cbs c sk

end Spf.CtExec
