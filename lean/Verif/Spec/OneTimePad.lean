import Verif.Model.OneTimePad
/-! Specification for one-time pads: what the party that removes the outer encryption of a recrypted integer sees. -/
namespace Spf.Spec
open Spf.Tfhe Spf.CtExec Spf.EncInt

/-- The view of the party (e.g. a threshold committee) that holds the secret key and receives the ciphertext `c` recrypted with the pad made from `draws`: the bit length and the polynomial it decrypts. -/
def committeeView (P : EvalParams) (pk : Glwe (BitVec 64)) (sk : List (List (BitVec 64))) (c : Packed 64) (d : PkDraws 64) (draws : Fin P.degree → Fin (2 ^ 64)) :
    Option (Nat × List (BitVec 64)) :=
  (generateOneTimePad P pk draws d).bind fun pad => recryptedOuter sk (packedRecrypt c pad.1)

/-- What the holder of the secret pad gets out of that view. -/
def padHolderView (P : EvalParams) (pk : Glwe (BitVec 64)) (sk : List (List (BitVec 64))) (sg : Fluent.Sign) (c : Packed 64) (d : PkDraws 64) (draws : Fin P.degree → Fin (2 ^ 64)) :
    Option (BitVec 128) :=
  (generateOneTimePad P pk draws d).bind fun pad => (recryptedOuter sk (packedRecrypt c pad.1)).bind fun r => recryptedDecrypt sg r pad.2

end Spf.Spec
