import Verif.Model.Objective
import Verif.Spec.Instance
/-
Specification of objectives: the cost of an assignment.
-/
namespace RustSat

/-- No literal of the clause is true. -/
def Clause.falsified (a : Asg) (c : Clause) : Bool := c.all fun l => !l.holds a

/-- Total weight of the falsified clauses. -/
def clsCost (a : Asg) : List (Clause × Nat) → Nat
  | [] => 0
  | (c, w) :: rest => (if Clause.falsified a c then w else 0) + clsCost a rest

/-- Number of falsified clauses. -/
def countFalsified (a : Asg) : List Clause → Nat
  | [] => 0
  | c :: rest => (if Clause.falsified a c then 1 else 0) + countFalsified a rest

/-- The cost of an assignment: the offset, plus the weight of every true soft literal, plus the weight of every
falsified soft clause. -/
def Objective.value (a : Asg) : Objective → Int
  | .weighted off sl sc => off + wsum a sl + clsCost a sc
  | .unweighted off u sl sc => off + u.getD 0 * (countTrue a sl + countFalsified a sc : Nat)

/-- Representation invariant: hash maps have distinct keys; without a unit weight there are no soft
constraints; unit clauses are stored as soft literals. -/
def Objective.WF : Objective → Prop
  | .weighted _ sl sc => (sl.map (·.1)).Nodup ∧ (sc.map (·.1)).Nodup ∧ ∀ p ∈ sc, p.1.length ≠ 1
  | .unweighted _ u sl sc => (u = none → sl = [] ∧ sc = []) ∧ ∀ c ∈ sc, c.length ≠ 1

/-- The variables of an objective. -/
def Objective.hasVar : Objective → Nat → Prop
  | .weighted _ sl sc, v => (∃ p ∈ sl, p.1.var = v) ∨ ∃ p ∈ sc, ∃ l ∈ p.1, l.var = v
  | .unweighted _ _ sl sc, v => (∃ l ∈ sl, l.var = v) ∨ ∃ c ∈ sc, ∃ l ∈ c, l.var = v

/-- A call that adds to an objective. -/
inductive ObjectiveOp where
  | lit (w : Nat) (l : Lit)
  | litInt (w : Int) (l : Lit)
  | clause (w : Nat) (c : Clause)
  | offset (i : Int)

/-- What the call should add to the cost of an assignment. -/
def ObjectiveOp.amount (a : Asg) : ObjectiveOp → Int
  | .lit w l => if l.holds a then w else 0
  | .litInt w l => if l.holds a then w else 0
  | .clause w c => if Clause.falsified a c then w else 0
  | .offset i => i

/-- The call on the objective. -/
def ObjectiveOp.apply (o : Objective) : ObjectiveOp → Objective
  | .lit w l => o.increaseSoftLit w l
  | .litInt w l => o.increaseSoftLitInt w l
  | .clause w c => o.increaseSoftClause w c
  | .offset i => o.increaseOffset i

end RustSat
