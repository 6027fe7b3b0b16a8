import Verif.Model.EncInt
/-! Model of the generation of one-time pads (parasol_runtime/src/crypto/recryption.rs). -/
namespace Spf.EncInt
open Spf.Tfhe Spf.CtExec

/-- parasol_runtime/src/crypto/recryption.rs:71-75: the coefficients of the pad; `draws i` is the outcome of `thread_rng().next_u64()` for coefficient `i`. -/
def otpKey (N : Nat) (draws : Fin N → Fin (2 ^ 64)) : List (BitVec 64) := List.ofFn fun i => BitVec.ofNat 64 ((draws i).val % 2)

/-- parasol_runtime/src/crypto/recryption.rs:66-82 `generate_one_time_pad`: the public pad (the encrypted key) and the secret pad (the key); `d` are the draws of the encryption. -/
def generateOneTimePad (P : EvalParams) (pk : Glwe (BitVec 64)) (draws : Fin P.degree → Fin (2 ^ 64)) (d : PkDraws 64) : Option (Glwe (BitVec 64) × List (BitVec 64)) :=
  match clientEncRlwe P pk (otpKey P.degree draws) d with
  | none => none
  | some ct => some (ct, otpKey P.degree draws)

end Spf.EncInt
