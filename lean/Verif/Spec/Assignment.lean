import Verif.Model.Assignment
import Verif.Spec.Sem
/-
Specification of assignments: a map from variables to ternary values together with the number of tracked
variables, and the three-valued value of a literal.
-/
namespace RustSat

/-- Abstract assignment: `size` tracked variables and the value of each variable. -/
structure AMap where
  size : Nat
  val : Nat → TernaryVal

/-- Operations of the `Assignment` API that modify it. -/
inductive AOp where
  | assignVar (v : Nat) (t : TernaryVal)
  | assignLit (l : Lit)
  | replaceDontCare (d : Bool)
  | truncate (maxVar : Nat)

/-- What each operation should do to the abstract map. -/
def AMap.step (m : AMap) : AOp → AMap
  | .assignVar v t => ⟨max m.size (v + 1), fun u => if u = v then t else m.val u⟩
  | .assignLit l => ⟨max m.size (l.var + 1),
      fun u => if u = l.var then (if l.isNeg then .false else .true) else m.val u⟩
  | .replaceDontCare d => ⟨m.size,
      fun u => if u < m.size ∧ m.val u = .dontCare then TernaryVal.ofBool d else m.val u⟩
  | .truncate mv => ⟨min m.size (mv + 1), fun u => if u ≤ mv then m.val u else .dontCare⟩

/-- The empty map. -/
def AMap.empty : AMap := ⟨0, fun _ => .dontCare⟩

/-- The model's step function. -/
def Assignment.step (a : Assignment) : AOp → Assignment
  | .assignVar v t => a.assignVar v t
  | .assignLit l => a.assignLit l
  | .replaceDontCare d => a.replaceDontCare d
  | .truncate mv => a.truncate mv

/-- `b` is a completion of the partial assignment `a`: it agrees with it on all assigned variables. -/
def Assignment.completedBy (a : Assignment) (b : Asg) : Prop :=
  ∀ v, (a.varValue v = .true → b v = true) ∧ (a.varValue v = .false → b v = false)

end RustSat
