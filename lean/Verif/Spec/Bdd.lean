import Verif.Model.MuxGraph
/-! Meaning of serialized decision diagrams, independent of the conversion to circuits. -/
namespace Spf.Spec
open Spf.Mux

/-- Value of node `j` of a diagram: node 0 is `false`, node 1 is `true`, any other node tests its variable and
continues with its high or low child. -/
def bddVal (recs : List BddNode) (env : Nat → Bool) (j : Nat) : Bool :=
  if j = 0 then false
  else if j = 1 then true
  else
    match recs[j]? with
    | none => false
    | some r =>
      if _h : r.low < j ∧ r.high < j then bif env r.var then bddVal recs env r.high else bddVal recs env r.low
      else false
termination_by j

/-- The Boolean function of a diagram: the value of its root, the last node. -/
def bddFn (recs : List BddNode) (env : Nat → Bool) : Bool := bddVal recs env (recs.length - 1)

/-- A reduced diagram over `nv` variables in the serialization of `biodivine_lib_bdd`: the two leaves come first,
children precede parents, no node has equal children. -/
structure ValidBdd (nv : Nat) (recs : List BddNode) : Prop where
  leaf0 : recs[0]? = some ⟨nv, 0, 0⟩
  leaf1 : recs[1]? = none ∨ recs[1]? = some ⟨nv, 1, 1⟩
  inner : ∀ (j : Nat) r, 2 ≤ j → recs[j]? = some r → r.low < j ∧ r.high < j ∧ r.low ≠ r.high ∧ r.var < nv

/-- A reduced and ordered diagram: moreover no two inner nodes are the same, and along every path the variables increase.
(Canonical form, as produced by `biodivine_lib_bdd`.) -/
structure ReducedBdd (nv : Nat) (recs : List BddNode) : Prop extends ValidBdd nv recs where
  unique : ∀ (j j' : Nat) r, 2 ≤ j → 2 ≤ j' → recs[j]? = some r → recs[j']? = some r → j = j'
  ordered : ∀ (j c : Nat) r r', 2 ≤ j → 2 ≤ c → recs[j]? = some r → recs[c]? = some r' → (c = r.low ∨ c = r.high) → r.var < r'.var

end Spf.Spec
