import Verif.Model.Totalizer
import Verif.Spec.TotDb
/-
What removing a range of nodes from a database means.
-/
namespace RustSat
namespace TotDb

/-- The id of a node after the nodes from `a` to before `b` are removed. -/
def newId (a b i : Nat) : Nat := if i < a then i else i - (b - a)

/-- The same node, with other ids of its children. -/
def Node.withIds (f : Nat → Nat) : Node → Node
  | .leaf l => .leaf l
  | .dummy => .dummy
  | .unit lits d n l r => .unit lits d n { l with id := f l.id } { r with id := f r.id }
  | .general lits d n m l r => .general lits d n m { l with id := f l.id } { r with id := f r.id }

/-- The ids of the children of a node. -/
def Node.childIds : Node → List Nat
  | .leaf _ | .dummy => []
  | .unit _ _ _ l r => [l.id, r.id]
  | .general _ _ _ _ l r => [l.id, r.id]

/-- The ids described by bounds for a database of `len` nodes: from the first number to before the second one. -/
def BoundIds (len : Nat) (lo hi : Bound) (i : Nat) : Prop :=
  (match lo with | .incl x => x ≤ i | .excl x => x < i | .unbounded => True) ∧
  (match hi with | .incl y => i ≤ y | .excl y => i < y | .unbounded => i < len)

end TotDb
end RustSat
