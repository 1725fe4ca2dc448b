import Verif.Model.Instance
import Verif.Spec.Constraints
/-
Specification of instances: satisfaction, variables, renaming, histories of variable manager calls.
-/
namespace RustSat

/-- An assignment satisfies an instance iff it satisfies all its constraints. -/
def SatInstance.sat {VM : Type} (a : Asg) (s : SatInstance VM) : Prop :=
  ClauseSet.sat a s.cnf ∧ (∀ c ∈ s.cards, CardConstraint.sat a c) ∧ (∀ c ∈ s.pbs, PbConstraint.sat a c)

/-- The variable `v` occurs in a constraint of the instance. -/
def SatInstance.hasVar {VM : Type} (s : SatInstance VM) (v : Nat) : Prop :=
  (∃ c ∈ s.cnf, ∃ l ∈ c, l.var = v) ∨ (∃ c ∈ s.cards, ∃ l ∈ c.lits, l.var = v) ∨
    (∃ c ∈ s.pbs, ∃ p ∈ c.lits, p.1.var = v)

/-- The variable manager regards every variable of the instance as used. -/
def SatInstance.Known {VM : Type} [ManageVars VM] (s : SatInstance VM) : Prop :=
  ∀ v, s.hasVar v → v < ManageVars.nUsed s.vm

/-- All PB constraints of the instance have a consistent weight cache (C11: the constructors ensure it). -/
def SatInstance.WF {VM : Type} (s : SatInstance VM) : Prop := ∀ c ∈ s.pbs, PbConstraint.WF c

/-- A constraint reference is satisfied. -/
def ConstraintRef.sat (a : Asg) : ConstraintRef → Prop
  | .clause c => Clause.sat a c
  | .card c => CardConstraint.sat a c
  | .pb c => PbConstraint.sat a c

/-- A constraint of the instance. -/
def SatInstance.hasConstraint {VM : Type} (s : SatInstance VM) : ConstraintRef → Prop
  | .clause c => c ∈ s.cnf
  | .card c => c ∈ s.cards
  | .pb c => c ∈ s.pbs

/-- Renaming the variable of a literal. -/
def Lit.rename (f : Nat → Nat) (l : Lit) : Lit := Lit.mk' (f l.var) l.isNeg

/-- A call on a variable manager. -/
inductive VmOp where
  | newVar
  | newLit
  | increaseNextFree (v : Nat)
  | markUsed (v : Nat)
  /-- combine with another manager with this many used variables -/
  | combine (used : Nat)
deriving DecidableEq, Repr

/-- The variables a history of calls makes known as used, together with the variables returned by
`newVar`/`newLit` in order. `init` is the set used initially. This is the user's view: a set of variables,
independent of any manager. -/
inductive UsedBy (init : Nat → Prop) : List VmOp → List Nat → Nat → Prop where
  | init {ops outs v} : init v → UsedBy init ops outs v
  | marked {ops outs v w} : .markUsed w ∈ ops → v ≤ w → UsedBy init ops outs v
  | increased {ops outs v w} : .increaseNextFree w ∈ ops → v < w → UsedBy init ops outs v
  | combined {ops outs v w} : .combine w ∈ ops → v < w → UsedBy init ops outs v
  | returned {ops outs v} : v ∈ outs → UsedBy init ops outs v

/-- Runs a history; `other w` is a manager with `w` used variables (the argument of `combine`). Returns the
variables handed out, in order, and the final manager. -/
def runVm {M : Type} [ManageVars M] (other : Nat → M) : M → List VmOp → List Nat × M
  | m, [] => ([], m)
  | m, .newVar :: ops =>
    let (v, m') := ManageVars.newVar m; let (vs, m'') := runVm other m' ops; (v :: vs, m'')
  | m, .newLit :: ops =>
    let (l, m') := ManageVars.newLit m; let (vs, m'') := runVm other m' ops; (l.var :: vs, m'')
  | m, .increaseNextFree v :: ops => runVm other (ManageVars.increaseNextFree m v).2 ops
  | m, .markUsed v :: ops => runVm other (ManageVars.markUsed m v).2 ops
  | m, .combine w :: ops => runVm other (ManageVars.combine m (other w)) ops

end RustSat
