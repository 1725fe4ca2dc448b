import Verif.Model.Solvers
import Verif.Spec.SolverOutput
/-
Specification of solvers: what a solver that is used once must satisfy, what an incremental solver must satisfy, and what
a solver executable must satisfy.
-/
namespace RustSat
open Dimacs DimacsSpec OutputSpec

/-- The assignment agrees with the values that the solver returns for literals. -/
def AgreesWith (val : Lit → Option TernaryVal) (b : Asg) : Prop :=
  ∀ l, (val l = some .true → l.holds b = true) ∧ (val l = some .false → l.holds b = false)

/-- The values are those of a model of the clauses, whatever values the variables have that the solver leaves open. -/
def GivesModel (val : Lit → Option TernaryVal) (F : ClauseSet) : Prop :=
  (∃ b, AgreesWith val b) ∧ ∀ b, AgreesWith val b → ClauseSet.sat b F

/-- The clauses have no model. -/
def Unsatisfiable (F : ClauseSet) : Prop := ¬ ∃ m, ClauseSet.sat m F

/-- A correct solver that may be used once: clauses are added, then there is one call of `solve`. Nothing is required if
an operation fails, or if anything other than reading values is done after `solve`. `holds s F`: no query was made yet and
the clauses in the solver are `F`. -/
class LawfulSolve (S : Type) [Solve S] where
  holds : S → ClauseSet → Prop
  init : ∀ k, holds (Solve.init k) []
  add : ∀ {s F c s'}, holds s F → Solve.addClause s c = (some (), s') → holds s' (F ++ [c])
  solveSat : ∀ {s F s'}, holds s F → Solve.solve s = (some .sat, s') → GivesModel (Solve.litVal s') F
  solveUnsat : ∀ {s F s'}, holds s F → Solve.solve s = (some .unsat, s') → Unsatisfiable F

/-- The solver never fails when it is used once. -/
class TotalSolve (S : Type) [Solve S] [LawfulSolve S] : Prop where
  add : ∀ {s : S} {F c}, LawfulSolve.holds s F → (Solve.addClause s c).1 = some ()
  solve : ∀ {s : S} {F}, LawfulSolve.holds s F → (Solve.solve s).1 ≠ none

/-- The simulator after any history of successful operations in which the clauses `F` were added. -/
inductive SimReach {S : Type} [Solve S] : Incremental S → ClauseSet → Prop where
  | new : SimReach Incremental.default []
  | add {i F c i'} : SimReach i F → i.addClause c = (some (), i') → SimReach i' (F ++ [c])
  | solve {i F r i'} : SimReach i F → i.solve = (some r, i') → SimReach i' F
  | assumps {i F A r i'} : SimReach i F → i.solveAssumps A = (some r, i') → SimReach i' F

/-- What a solver program may write for the clauses `F`: a status, and if it is `SATISFIABLE`, literals on value lines
that make the clauses true. -/
inductive ProperAnswer (F : ClauseSet) (out : Text) : Prop where
  | sat {lits : List Lit} : SatOutput (Text.lines out) lits → lits.Pairwise (fun x y => x.var ≠ y.var) →
      (∃ l ∈ Text.lines out, SaysSat l) → (∃ l ∈ Text.lines out, ValueLine l) →
      (∀ b : Asg, (∀ l ∈ lits, l.holds b = true) → ClauseSet.sat b F) → ProperAnswer F out
  | unsat {pre l post} : Text.lines out = pre ++ l :: post → (∀ l ∈ pre, ¬ StatusLine l ∧ ¬ ValueLine l) → SaysUnsat l →
      Unsatisfiable F → ProperAnswer F out
  | unknown {pre l post} : Text.lines out = pre ++ l :: post → (∀ l ∈ pre, ¬ StatusLine l ∧ ¬ ValueLine l) →
      SaysUnknown l → ProperAnswer F out

/-- The text of a CNF file with the given numbers in the header. -/
def CnfText (t : Text) (nv nc : Nat) (ds : List CnfData) : Prop :=
  ∃ pre h w w' ls, (∀ l ∈ pre, DimacsSpec.IgnoredLine l) ∧ DimacsSpec.CnfHeaderText nv nc h ∧ DimacsSpec.White w ∧
    DimacsSpec.White w' ∧ '\n' ∉ w ++ h ++ w' ∧ DimacsSpec.FileLines DimacsSpec.CnfLineText ls ds ∧
    t = unlines (pre ++ (w ++ h ++ w') :: ls)

/-- A solver program that works for all CNF files whose header says the right numbers, of up to 2³²-1 variables and
2⁶⁴-1 clauses. -/
def CorrectProgram (run : Program) : Prop :=
  ∀ t nv (F : ClauseSet), nv ≤ u32Max → F.length ≤ usizeMax → CnfText t nv F.length (F.map .clause) →
    (∀ c ∈ F, ∀ l ∈ c, l.var < nv) →
    ((run t).1 = some 0 ∨ (run t).1 = some 10 ∨ (run t).1 = some 20) ∧ ProperAnswer F (run t).2

/-- The interface to a program after any history of adding clauses. -/
inductive ExtReach : External → ClauseSet → Prop where
  | new : ExtReach External.new []
  | add {e F c e'} : ExtReach e F → e.addClause c = (.ok (), e') → ExtReach e' (F ++ [c])

end RustSat
