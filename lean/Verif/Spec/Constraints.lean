import Verif.Model.Constraints
import Verif.Spec.Assignment
/-
Specification: when an assignment satisfies a cardinality or pseudo-Boolean constraint.
-/
namespace RustSat

/-- `sum of lits ≤ / ≥ / = b`. -/
def CardConstraint.sat (a : Asg) : CardConstraint → Prop
  | .ub l b => countTrue a l ≤ b
  | .lb l b => b ≤ countTrue a l
  | .eq l b => countTrue a l = b

/-- `weighted sum of lits ≤ / ≥ / = b`. -/
def PbConstraint.sat (a : Asg) : PbConstraint → Prop
  | .ub l _ b => (wsum a l : Int) ≤ b
  | .lb l _ b => b ≤ (wsum a l : Int)
  | .eq l _ b => (wsum a l : Int) = b

/-- The cached weight sum is the sum of the weights. -/
def PbConstraint.WF (c : PbConstraint) : Prop := c.weightSum = wtotal c.lits

/-- All weights are positive. -/
def PbConstraint.PosWeights (c : PbConstraint) : Prop := ∀ p ∈ c.lits, 0 < p.2

/-- A clause contains a literal and its negation. -/
def Clause.Taut (c : Clause) : Prop := ∃ l, l ∈ c ∧ l.neg ∈ c

/-- Total weight of the literals that a partial assignment does not falsify. -/
def notFalseWeight (a : Assignment) : List (Lit × Nat) → Nat
  | [] => 0
  | (l, w) :: rest => (if a.litValue l = .false then 0 else w) + notFalseWeight a rest

end RustSat
