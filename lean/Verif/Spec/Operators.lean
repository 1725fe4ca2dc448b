import Verif.Model.Operators
import Verif.Spec.Instance
/-
Specification of the operators: expressions, their Boolean reading and their types.
-/
namespace RustSat

/-- An expression a user writes with `!`, `|` and `&` over values of the types. -/
inductive OpExpr (VM : Type) where
  | val (x : Operand VM)
  | not (e : OpExpr VM)
  | or (e f : OpExpr VM)
  | and (e f : OpExpr VM)

/-- What a value says about an assignment. -/
def Operand.says {VM : Type} (a : Asg) : Operand VM → Prop
  | .var v => a v = true
  | .lit l => l.holds a = true
  | .clause c => Clause.sat a c
  | .cnf f => ClauseSet.sat a f
  | .inst s => SatInstance.sat a s

namespace OpExpr
variable {VM : Type} [ManageVars VM]

/-- The Boolean reading of an expression. -/
def says (a : Asg) : OpExpr VM → Prop
  | .val x => x.says a
  | .not e => ¬ e.says a
  | .or e f => e.says a ∨ f.says a
  | .and e f => e.says a ∧ f.says a

/-- The program's value of the expression, `none` if it does not compile. -/
def run : OpExpr VM → Option (Operand VM)
  | .val x => some x
  | .not e => e.run.bind Operand.not
  | .or e f => e.run.bind fun x => f.run.bind fun y => x.or y
  | .and e f => e.run.bind fun x => f.run.bind fun y => x.and y

/-- Rank of the types: variable, literal, clause, CNF, instance. -/
def rank : Operand VM → Nat
  | .var _ => 0 | .lit _ => 1 | .clause _ => 2 | .cnf _ => 3 | .inst _ => 4

/-- The types of expressions: only variables and literals are negated, giving a literal; only variables,
literals and clauses are operands of `|`, giving a clause; `&` gives a CNF, except with an instance on the
left; an instance stands on the right only of an instance. -/
def type : OpExpr VM → Option Nat
  | .val x => some (rank x)
  | .not e => match e.type with
    | some t => if t ≤ 1 then some 1 else none
    | none => none
  | .or e f => match e.type, f.type with
    | some t, some u => if t ≤ 2 ∧ u ≤ 2 then some 2 else none
    | _, _ => none
  | .and e f => match e.type, f.type with
    | some t, some u => if t = 4 then some 4 else if u ≤ 3 then some 3 else none
    | _, _ => none

/-- The values of an expression. -/
def vals : OpExpr VM → List (Operand VM)
  | .val x => [x]
  | .not e => e.vals
  | .or e f => e.vals ++ f.vals
  | .and e f => e.vals ++ f.vals

/-- No instance with cardinality or pseudo-Boolean constraints stands right of an `&`. -/
def plainRight : OpExpr VM → Prop
  | .val _ => True
  | .not e => e.plainRight
  | .or e f => e.plainRight ∧ f.plainRight
  | .and e f => e.plainRight ∧ f.plainRight ∧ ∀ s, Operand.inst s ∈ f.vals → s.cards = [] ∧ s.pbs = []

end OpExpr
end RustSat
