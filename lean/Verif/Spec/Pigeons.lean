import Verif.Spec.VeriPb
/-
What users of the proof logging library expect: sequences of operations denote the constraint that results from the
operations, whatever the special cases in building them; constraints mean the inequality they are written as.
-/
namespace RustSat
open VeriPb

namespace Pigeons

/-- A constraint `sum of coefficients times literals >= rhs` is satisfied. -/
def Constr.sat (c : Constr) (b : Asg) : Prop :=
  c.rhs ≤ (c.sum.map fun t => if t.2.holds b then t.1 else 0).sum

/-- How a user builds a sequence of operations. -/
inductive Expr where
  | empty
  | con (id : Nat)
  | ax (l : Lit)
  | add (e f : Expr)
  | mul (e : Expr) (k : Nat)
  | div (e : Expr) (k : Nat)
  | saturate (e : Expr)
deriving DecidableEq, Repr

/-- The sequence that the library builds. -/
def Expr.ops : Expr → Ops
  | .empty => []
  | .con id => [.id id]
  | .ax l => [.ax l]
  | .add e f => e.ops.add f.ops
  | .mul e k => e.ops.mul k
  | .div e k => e.ops.div k
  | .saturate e => e.ops.saturate

/-- The constraint that is meant: nothing is `0 >= 0`. -/
def Expr.value (s : State) : Expr → Option Ineq
  | .empty => some .trivial
  | .con id => s.get id
  | .ax l => some (Ineq.axiom l)
  | .add e f => match e.value s, f.value s with | some c, some d => some (c.add d) | _, _ => none
  | .mul e k => (e.value s).map fun d => d.mul k
  | .div e k => if k = 0 then none else (e.value s).map fun d => d.div k
  | .saturate e => (e.value s).map fun d => d.saturate

/-- The variables substituted by a line. -/
def Line.substituted : Line → List Nat
  | .red _ w => w.map (·.1)
  | _ => []

/-- Writing any line. -/
def Proof.write (p : Proof) : Line → Proof
  | .del ids => p.deleteIds ids
  | l => (p.push l).2

end Pigeons
end RustSat
