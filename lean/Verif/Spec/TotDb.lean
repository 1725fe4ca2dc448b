import Verif.Spec.Sem
import Verif.Model.NodeDb
/-
The meaning of a totalizer database: the value of a node for a given set of true literals.
-/
namespace RustSat
namespace TotDb

/-- Value of a node: a leaf has value one if its literal is true, an internal node adds up what its two
connections transmit. The ids of children are smaller than the id of the node, so that `id + 1` levels suffice. -/
def valueF (db : Db) (T : Lit → Bool) : Nat → Nat → Nat
  | 0, _ => 0
  | fuel + 1, id =>
    match db.node id with
    | .leaf l => if T l then 1 else 0
    | .unit _ _ _ l r => l.map (valueF db T fuel l.id) + r.map (valueF db T fuel r.id)
    | .general _ _ _ _ l r => l.map (valueF db T fuel l.id) + r.map (valueF db T fuel r.id)
    | .dummy => 0

/-- The value of a node. -/
def value (db : Db) (T : Lit → Bool) (id : Nat) : Nat := valueF db T (id + 1) id

/-- The value transmitted by a connection. -/
def conVal (db : Db) (T : Lit → Bool) (c : NodeCon) : Nat := c.map (value db T c.id)

/-- The literals that are true under an assignment. -/
def trueLits (a : Asg) : Lit → Bool := fun l => l.holds a

end TotDb
end RustSat
