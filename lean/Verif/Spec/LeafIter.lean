import Verif.Model.LeafIter
import Verif.Spec.AssignIter
import Verif.Spec.TotDb
/-
Vocabulary for the leaves of a totalizer.
-/
namespace RustSat
namespace TotDb

/-- The connections of a node to its children. -/
def Node.cons : Node → List NodeCon
  | .leaf _ | .dummy => []
  | .unit _ _ _ l r => [l, r]
  | .general _ _ _ _ l r => [l, r]

/-- All outputs that a connection transmits have literals, if it does not transmit all of them. -/
def Reserved (db : Db) : Prop :=
  ∀ i, ∀ c ∈ (db.node i).cons, c.offset = 0 ∧ c.lenLimit = none ∨
    ∀ v, c.offset < v → v ≤ (db.node c.id).len → ∃ l, (db.node c.id).litAt v = some l

/-- No connection divides values. -/
def Undivided (db : Db) : Prop := ∀ i, ∀ c ∈ (db.node i).cons, c.divisor = 1

/-- Connections transmit all values. -/
def Complete (db : Db) : Prop := ∀ i, ∀ c ∈ (db.node i).cons, c.offset = 0 ∧ c.lenLimit = none

/-- Output literals are true if and only if the value of the node reaches the value of the output. -/
def OutsStrict (db : Db) (a : Asg) : Prop :=
  ∀ i v l, (db.node i).litAt v = some l → (l.holds a = true ↔ v ≤ value db (trueLits a) i)

end TotDb
end RustSat
