import Verif.Model.AssignIter
import Verif.Spec.Gte
import Verif.Spec.Assignment
/-
What it means for a total assignment to agree with a partial one.
-/
namespace RustSat

/-- The partial assignment `as` gives the literals the values that they have under `a`. -/
def Agrees (as : Assignment) (a : Asg) (ins : List Lit) : Prop := ∀ l ∈ ins, as.litValue l = TernaryVal.ofBool (l.holds a)

/-- The iterator ends without a panic after yielding `out`: with any sufficient number of steps. -/
def Yields {α : Type} (f : Nat → Option α) (out : α) : Prop := ∃ n, ∀ m, n ≤ m → f m = some out

end RustSat
