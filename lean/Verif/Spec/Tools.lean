import Verif.Model.Tools
import Verif.Spec.Solvers
import Verif.Spec.MaxSat
import Verif.Spec.SolverOutput
import Verif.Spec.Dimacs
/-
Specification of incremental solvers, and of lists of all solutions.
-/
namespace RustSat

/-- A correct incremental solver without limits: clauses may be added after `solve`, no operation fails, `solve` decides
the clauses added so far, and after `Sat` there is a value for each literal. `holds s F`: the clauses in the solver are
`F`. -/
class LawfulIncremental (S : Type) [Solve S] where
  holds : S → ClauseSet → Prop
  init : ∀ k, holds (Solve.init k) []
  add : ∀ {s F} c, holds s F → ∃ s', Solve.addClause s c = (some (), s') ∧ holds s' (F ++ [c])
  solve : ∀ {s F}, holds s F →
    (∃ s', Solve.solve s = (some .sat, s') ∧ holds s' F ∧ GivesModel (Solve.litVal s') F ∧
      ∀ v, ∃ t, Solve.litVal s' (Lit.pos v) = some t ∧ Solve.litVal s' (Lit.negOf v) = some t.not) ∨
    ∃ s', Solve.solve s = (some .unsat, s') ∧ Unsatisfiable F

/-- The assignments list all solutions, on the variables up to `mv`: completing one of them in any way gives values of a
solution, each solution completes one of them, and no assignment completes two of them. -/
structure ListsSolutions (mv : Nat) (Sol : Asg → Prop) (sols : List Assignment) : Prop where
  vars : ∀ s ∈ sols, ∀ v, mv < v → s.varValue v = .dontCare
  sound : ∀ s ∈ sols, ∀ b, s.completedBy b → ∃ m, (∀ v, v ≤ mv → m v = b v) ∧ Sol m
  complete : ∀ m, Sol m → ∃ s ∈ sols, s.completedBy m
  disjoint : sols.Pairwise fun s t => ¬ ∃ b, s.completedBy b ∧ t.completedBy b

/-- Two optimisation problems with the same objectives up to constants, where the second one may have further variables:
each solution of the second is one of the first with at most its costs, and each solution of the first has a counterpart
in the second that agrees on the variables of the first and has the same costs. -/
def SameProblem {VM VM' : Type} (s : SatInstance VM) (objs : List Objective) (s' : SatInstance VM') (objs' : List Objective) :
    Prop :=
  ∃ k : Nat → Int,
    (∀ b, s'.sat b → s.sat b ∧ ∀ j, j < objs.length →
      DimacsSpec.objValue objs j b ≤ DimacsSpec.objValue objs' j b + k j) ∧
    ∀ a, s.sat a → ∃ b, (∀ v, s.hasVar v ∨ (∃ o ∈ objs, o.hasVar v) → b v = a v) ∧ s'.sat b ∧
      ∀ j, j < objs.length → DimacsSpec.objValue objs' j b + k j = DimacsSpec.objValue objs j a

/-- The lines of a file with a solution, and the literals listed in them. Lines that do not start with `v` are ignored. -/
inductive SolutionLines : List Text → List Lit → Prop where
  | nil : SolutionLines [] []
  | other {l ls lits} : l.head? ≠ some 'v' → SolutionLines ls lits → SolutionLines (l :: ls) lits
  | value {l lits ls lits'} : OutputSpec.ListsLits lits l → SolutionLines ls lits' → SolutionLines (l :: ls) (lits ++ lits')

end RustSat
