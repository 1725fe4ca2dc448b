import Verif.Spec.Sem
/-
What it means for clauses with auxiliary variables to encode a constraint.
-/
namespace RustSat

/-- The clauses `cls` encode the constraint `P`, with the input variables `V` and the auxiliary variables
`n, …, n' - 1`. -/
structure Encodes (V : Nat → Prop) (n n' : Nat) (cls : ClauseSet) (P : Asg → Prop) : Prop where
  le : n ≤ n'
  /-- only input and new variables occur -/
  vars : ∀ c ∈ cls, ∀ l ∈ c, V l.var ∨ (n ≤ l.var ∧ l.var < n')
  /-- every model satisfies the constraint -/
  sound : ∀ b, ClauseSet.sat b cls → P b
  /-- every assignment satisfying the constraint becomes a model by changing new variables only -/
  complete : ∀ a, P a → ∃ b, (∀ v, v < n ∨ n' ≤ v → b v = a v) ∧ ClauseSet.sat b cls

/-- The variables of a list of literals. -/
def varsOf (lits : List Lit) (v : Nat) : Prop := ∃ l ∈ lits, l.var = v

end RustSat
