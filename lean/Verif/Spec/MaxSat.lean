import Verif.Model.MaxSat
import Verif.Spec.Objective
import Verif.Spec.Assignment
/-
Specification of SAT solving and of optimal solutions.
-/
namespace RustSat

/-- The assignment has the given (ternary) values on the variables up to `mv`. -/
def Completes (mv : Nat) (val : Nat → TernaryVal) (b : Asg) : Prop :=
  ∀ v, v ≤ mv → (val v = .true → b v = true) ∧ (val v = .false → b v = false)

/-- A correct SAT solver never fails, answers that there is no model only if there is none, and if it returns values
then every way of choosing values for the variables it does not care about gives values of a model, as far as variables
up to `mv` are concerned. -/
def CorrectSolver (mv : Nat) (oracle : Nat → ClauseSet → SolverAnswer) : Prop :=
  ∀ call cls, match oracle call cls with
    | .fail => False
    | .unsat => ¬ ∃ m, ClauseSet.sat m cls
    | .sat val => ∀ b, Completes mv val b → ∃ m : Asg, (∀ v, v ≤ mv → m v = b v) ∧ ClauseSet.sat m cls

/-- The solver gives values to all variables. -/
def TotalSolver (mv : Nat) (oracle : Nat → ClauseSet → SolverAnswer) : Prop :=
  ∀ call cls val, oracle call cls = .sat val → ∀ v, v ≤ mv → val v ≠ .dontCare

/-- No variable occurs in both polarities. -/
def OnePolarity (obj : List (Lit × Nat)) : Prop := ∀ x ∈ obj, ∀ y ∈ obj, x.1.var = y.1.var → x.1.isNeg = y.1.isNeg

/-- `sol` is an optimal solution with cost `c`: all completions are solutions, one of them has cost `c`, and no solution
has a lower cost. -/
structure IsOptimum (Sol : Asg → Prop) (cost : Asg → Int) (sol : Assignment) (c : Int) : Prop where
  solution : ∀ b, sol.completedBy b → Sol b
  attained : ∃ b, sol.completedBy b ∧ cost b = c
  minimal : ∀ b, Sol b → c ≤ cost b

/-- The result of minimising: nothing if there is no solution, and otherwise an optimal solution. -/
def IsResult (Sol : Asg → Prop) (cost : Asg → Int) : SearchResult (Option (Assignment × Int)) → Prop
  | .done none => ¬ ∃ b, Sol b
  | .done (some (sol, c)) => IsOptimum Sol cost sol c
  | _ => False

/-- The soft literals of an objective with their weights. -/
def Objective.litList : Objective → List (Lit × Nat)
  | .weighted _ sl _ => sl
  | .unweighted _ u sl _ => sl.map fun l => (l, u.getD 0)

/-- What a conversion of an instance to hard clauses, soft literals and offsets must satisfy: models of the hard clauses
are solutions and not cheaper than they are in the instance, and every solution becomes a model of the same cost by
changing variables only that the instance does not use. The variable manager knows all variables. -/
structure ConvertsTo {VM : Type} [ManageVars VM] (s : SatInstance VM) (objs : List Objective) (cnf : ClauseSet)
    (softs : List (List (Lit × Nat) × Int)) (vm : VM) : Prop where
  length : softs.length = objs.length
  sound : ∀ b, ClauseSet.sat b cnf → s.sat b ∧
    ∀ (j : Nat) o p, objs[j]? = some o → softs[j]? = some p → o.value b ≤ p.2 + wsum b p.1
  complete : ∀ a, s.sat a → ∃ b, (∀ v, (s.hasVar v ∨ ∃ o ∈ objs, o.hasVar v) → b v = a v) ∧ ClauseSet.sat b cnf ∧
    ∀ (j : Nat) o p, objs[j]? = some o → softs[j]? = some p → p.2 + wsum b p.1 = o.value a
  known : (∀ c ∈ cnf, ∀ l ∈ c, l.var < ManageVars.nUsed vm) ∧ ∀ p ∈ softs, ∀ x ∈ p.1, x.1.var < ManageVars.nUsed vm

end RustSat
