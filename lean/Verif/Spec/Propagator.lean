import Verif.Model.Propagator
import Verif.Spec.Instance
import Verif.Spec.EncodeConstr
import Verif.Spec.Opb
import Verif.Spec.Dimacs
import Verif.Spec.Bindings
/-
What users expect of the tool that propagates assumptions.
-/
namespace RustSat
namespace Propagator

/-- The text names the literal in an input file: as in an OPB file whose first variable has the index `first`, or as in a
DIMACS file. -/
def Names (first : Nat) (l : Lit) (s : Text) : Prop :=
  OpbSpec.LitText first l s ∨ (l.InRange ∧ s = Text.showInt (DimacsSpec.number l))

/-- The texts are the arguments for the assumptions. -/
def NamesAll (first : Nat) : List Lit → List Text → Prop
  | [], [] => True
  | l :: ls, s :: ss => Names first l s ∧ NamesAll first ls ss
  | _, _ => False

/-- The literal holds in all solutions of the instance in which the assumptions hold. -/
def Follows (inst : SatInstance BasicVM) (A : List Lit) (l : Lit) : Prop :=
  ∀ a, inst.sat a → (∀ k ∈ A, k.holds a = true) → l.holds a = true

/-- The line consists of the names of the literals, separated by commas, where the first variable has the index zero (for
numbers of variables that can be read again). -/
def NamedLine (ls : List Lit) (s : Text) : Prop :=
  ∃ f : Lit → Text, s = [','].intercalate (ls.map f) ∧ ∀ l, l.var ≤ 2147483647 → Names 0 l (f l)

end Propagator
end RustSat
