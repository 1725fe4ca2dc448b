import Verif.Model.Instance
/-
Model of the operators that build formulas (src/types/operators.rs l.1-430). Which operand types an operator
accepts is decided by the implementations; an operator without implementation for its operands does not
compile, which is `none`.
-/
namespace RustSat

/-- The types of operands (operators.rs l.3-9). -/
inductive Operand (VM : Type) where
  | var (v : Nat)
  | lit (l : Lit)
  | clause (c : Clause)
  | cnf (f : ClauseSet)
  | inst (s : SatInstance VM)

namespace Operand
variable {VM : Type} [ManageVars VM]

/-- `Not` and `Neg` for variables and literals (operators.rs l.13-56). -/
def not : Operand VM → Option (Operand VM)
  | .var v => some (.lit (Lit.negOf v))
  | .lit l => some (.lit l.neg)
  | _ => none

/-- The implementations of `BitOr` (operators.rs l.58-142) and, for a clause on the left, of `BitOrAssign`
(l.144-160), which change the clause to the same result. -/
def or : Operand VM → Operand VM → Option (Operand VM)
  | .var v, .var w => some (.clause [Lit.pos v, Lit.pos w])
  | .var v, .lit m => some (.clause [Lit.pos v, m])
  | .var v, .clause d => some (.clause ([Lit.pos v] ++ d))
  | .lit l, .var w => some (.clause [l, Lit.pos w])
  | .lit l, .lit m => some (.clause [l, m])
  | .lit l, .clause d => some (.clause ([l] ++ d))
  | .clause c, .var w => some (.clause (c ++ [Lit.pos w]))
  | .clause c, .lit m => some (.clause (c ++ [m]))
  | .clause c, .clause d => some (.clause (c ++ d))
  | _, _ => none

/-- The implementations of `BitAnd` (operators.rs l.163-311, for instances l.337-) and, for a formula or an
instance on the left, of `BitAndAssign`, which change it to the same result. -/
def and : Operand VM → Operand VM → Option (Operand VM)
  | .var v, .var w => some (.cnf [[Lit.pos v], [Lit.pos w]])
  | .var v, .lit m => some (.cnf [[Lit.pos v], [m]])
  | .var v, .clause d => some (.cnf [[Lit.pos v], d])
  | .var v, .cnf g => some (.cnf (Cnf.join [[Lit.pos v]] g))
  | .lit l, .var w => some (.cnf [[l], [Lit.pos w]])
  | .lit l, .lit m => some (.cnf [[l], [m]])
  | .lit l, .clause d => some (.cnf [[l], d])
  | .lit l, .cnf g => some (.cnf (Cnf.join [[l]] g))
  | .clause c, .var w => some (.cnf [c, [Lit.pos w]])
  | .clause c, .lit m => some (.cnf [c, [m]])
  | .clause c, .clause d => some (.cnf [c, d])
  | .clause c, .cnf g => some (.cnf (Cnf.join [c] g))
  | .cnf f, .var w => some (.cnf (Cnf.addClause f [Lit.pos w]))
  | .cnf f, .lit m => some (.cnf (Cnf.addClause f [m]))
  | .cnf f, .clause d => some (.cnf (Cnf.addClause f d))
  | .cnf f, .cnf g => some (.cnf (Cnf.join f g))
  | .inst s, .var w => some (.inst (s.addClause [Lit.pos w]))
  | .inst s, .lit m => some (.inst (s.addClause [m]))
  | .inst s, .clause d => some (.inst (s.addClause d))
  | .inst s, .cnf g => some (.inst (s.extendClauses g))
  | .inst s, .inst o => some (.inst (s.extend o))
  | _, _ => none

end Operand
end RustSat
