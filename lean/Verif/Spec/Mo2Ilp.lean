import Verif.Model.Text
import Verif.Spec.Tools
/-
Specification of integer linear programs with several objectives over variables that are zero or one, of the two formats in
which they are written, and of what it means that a program represents an optimisation problem.
-/
namespace RustSat

/-- The relations of linear constraints. -/
inductive Ilp.Rel where
  | ge | le | eq
deriving DecidableEq, Repr

/-- An integer linear program over the variables `0, …, vars - 1`: objectives to be minimised and constraints, each with one
coefficient for each variable. -/
structure Ilp where
  vars : Nat
  objs : List (List Int)
  constrs : List (List Int × Ilp.Rel × Int)
deriving DecidableEq, Repr

namespace Ilp

/-- The value of a linear function. -/
def rowVal : List Int → Asg → Int
  | [], _ => 0
  | c :: cs, x => (if x 0 then c else 0) + rowVal cs fun j => x (j + 1)

/-- A linear constraint holds. -/
def holds (x : Asg) : List Int × Rel × Int → Prop
  | (row, .ge, b) => rowVal row x ≥ b
  | (row, .le, b) => rowVal row x ≤ b
  | (row, .eq, b) => rowVal row x = b

/-- A solution of the program. -/
def sat (p : Ilp) (x : Asg) : Prop := ∀ c ∈ p.constrs, holds x c

/-- Each linear function has one coefficient for each variable. -/
def WF (p : Ilp) : Prop := (∀ row ∈ p.objs, row.length = p.vars) ∧ ∀ c ∈ p.constrs, c.1.length = p.vars

/-- The relations as numbers. -/
def Rel.word : Rel → Text
  | .ge => "0".toList
  | .le => "1".toList
  | .eq => "2".toList

/-- The words of a program in the format of Forget et al.: the numbers of variables, constraints and objectives, the types of
the objectives, their coefficients, those of the constraints, the relations and right-hand sides, the lower bounds and the
upper bounds of the variables. -/
def fgt (p : Ilp) : List Text :=
  [p.vars, p.constrs.length, p.objs.length].map Text.showNat ++ List.replicate p.objs.length "minsum".toList ++
  (p.objs.flatten).map Text.showInt ++ (p.constrs.flatMap (·.1)).map Text.showInt ++
  (p.constrs.flatMap fun c => [c.2.1.word, Text.showInt c.2.2]) ++
  List.replicate p.vars "0".toList ++ List.replicate p.vars "1".toList

/-- The words of a program in the format of Bauss et al.: the numbers of variables, constraints, objectives, of non-zero
coefficients in constraints and of those in objectives, the coefficients of the objectives, those of the constraints, the
relations and right-hand sides. -/
def bauss (nonZeroConstrs nonZeroObjs : Nat) (p : Ilp) : List Text :=
  [p.vars, p.constrs.length, p.objs.length, nonZeroConstrs, nonZeroObjs].map Text.showNat ++
  (p.objs.flatten).map Text.showInt ++ (p.constrs.flatMap (·.1)).map Text.showInt ++
  (p.constrs.flatMap fun c => [c.2.1.word, Text.showInt c.2.2])

/-- The number of non-zero coefficients. -/
def nonZeros (rows : List (List Int)) : Nat := (rows.flatten.filter (· ≠ 0)).length

end Ilp

/-- The variable occurs in the constraints or in an objective. -/
def MultiOptInstance.hasVar {VM : Type} (i : MultiOptInstance VM) (v : Nat) : Prop :=
  i.constrs.hasVar v ∨ ∃ o ∈ i.objs, o.hasVar v

/-- The program represents the optimisation problem, where the variable `v` of the problem is the variable `name v` of the
program: each solution of the program is one of the problem with at most its costs, and each solution of the problem becomes
one of the program with the same costs. -/
structure Ilp.Represents {VM : Type} (p : Ilp) (i : MultiOptInstance VM) (name : Nat → Nat) : Prop where
  objectives : p.objs.length = i.objs.length
  names : ∀ v, i.hasVar v → name v < p.vars
  distinct : ∀ u v, i.hasVar u → i.hasVar v → u < v → name u < name v
  sound : ∀ x, p.sat x → ∀ b : Asg, (∀ v, i.hasVar v → b v = x (name v)) →
    i.constrs.sat b ∧ ∀ (j : Nat) o row, i.objs[j]? = some o → p.objs[j]? = some row → o.value b ≤ rowVal row x
  complete : ∀ a, i.constrs.sat a → ∃ x : Asg, (∀ v, i.hasVar v → x (name v) = a v) ∧ p.sat x ∧
    ∀ (j : Nat) o row, i.objs[j]? = some o → p.objs[j]? = some row → rowVal row x = o.value a

/-- The sums of the coefficients of each objective and of each pseudo-Boolean constraint are at most the greatest signed
number, so that the conversion of the coefficients does not panic and no sum overflows. -/
def MultiOptInstance.Fits {VM : Type} (i : MultiOptInstance VM) : Prop :=
  (∀ o ∈ i.objs, o.weightSum ≤ isizeMax) ∧ ∀ c ∈ i.constrs.pbs, wtotal c.lits ≤ isizeMax

/-- A vector of costs is at least as good in all objectives. -/
def atMost (n : Nat) (c d : Nat → Int) : Prop := ∀ j, j < n → c j ≤ d j

/-- The costs of an assignment. -/
def MultiOptInstance.costs {VM : Type} (i : MultiOptInstance VM) (a : Asg) (j : Nat) : Int := ((i.objs[j]?).map fun o => o.value a).getD 0

/-- The costs of a solution of a program. -/
def Ilp.costs (p : Ilp) (x : Asg) (j : Nat) : Int := ((p.objs[j]?).map fun r => rowVal r x).getD 0

/-- Costs that a solution has, and that no solution improves without being worse in some objective. -/
def NonDominated (n : Nat) (Sol : Asg → Prop) (costs : Asg → Nat → Int) (d : Nat → Int) : Prop :=
  (∃ x, Sol x ∧ ∀ j, j < n → costs x j = d j) ∧ ∀ y, Sol y → atMost n (costs y) d → atMost n d (costs y)

end RustSat
