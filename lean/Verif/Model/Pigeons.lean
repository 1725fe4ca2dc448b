import Verif.Model.Constraints
/-
Model of the proof logging library `pigeons`: sequences of operations (pigeons/src/ops.rs) and the methods of
`Proof` that add or delete constraints (pigeons/src/lib.rs).

A proof is the list of its lines, as data; the text of a line is its `Display` implementation. Constraints are
referred to by absolute ids (`ConstraintId::Abs`). Constraint ids are unbounded. I/O errors are not modelled. Relative
ids, sub-proofs, orders, proof-only variables, objective updates, solutions and conclusions are in `Verif.Model.ProofText`,
which models the text.
-/
namespace RustSat
namespace Pigeons

/-- What `ConstraintLike` says about a constraint (pigeons/src/lib.rs): `sum_iter` and `rhs`, i.e. the constraint
`sum of coefficients times literals >= rhs`. -/
structure Constr where
  sum : List (Int × Lit)
  rhs : Int
deriving DecidableEq, Repr

/-- `Operation` (pigeons/src/ops.rs l.225-244). -/
inductive Op where
  | id (n : Nat)
  | ax (l : Lit)
  | add
  | mult (k : Nat)
  | div (k : Nat)
  | sat
  | weak
deriving DecidableEq, Repr

/-- `OperationSequence` (pigeons/src/ops.rs l.12-26): the special cases for empty and singleton sequences are lists
of that length, see `Verif.Model.OpSeq` for them. -/
abbrev Ops := List Op

namespace Ops
/-- `OperationSequence::add` (ops.rs l.294-309) and `add_assign` (l.311-324). -/
def add (a b : Ops) : Ops := if a = [] then b else if b = [] then a else a ++ b ++ [.add]
/-- `OperationSequence::mul` (ops.rs l.164-178). -/
def mul (a : Ops) (k : Nat) : Ops := if k = 0 then [] else if a ≠ [] ∧ k > 1 then a ++ [.mult k] else a
/-- `OperationSequence::div` (ops.rs l.202-213), for a positive divisor. -/
def div (a : Ops) (k : Nat) : Ops := if a ≠ [] then a ++ [.div k] else a
/-- `OperationSequence::saturate` (ops.rs l.133-138). -/
def saturate (a : Ops) : Ops := if a ≠ [] then a ++ [.sat] else a
/-- `OperationSequence::weaken` (ops.rs l.140-145). -/
def weaken (a : Ops) : Ops := if a ≠ [] then a ++ [.weak] else a
end Ops

/-- The lines of a proof. -/
inductive Line where
  /-- `pol <operations>` -/
  | pol (ops : Ops)
  /-- `rup <constraint> ; <hints>` -/
  | rup (c : Constr) (hints : List Nat)
  /-- `red <constraint> ; <variable> -> <value> ..` -/
  | red (c : Constr) (subst : List (Nat × Bool))
  /-- `del id <ids> ;` -/
  | del (ids : List Nat)
deriving DecidableEq, Repr

/-- `Proof` (pigeons/src/lib.rs): the written lines and `next_id`. -/
structure Proof where
  lines : List Line
  nextId : Nat
deriving DecidableEq, Repr

namespace Proof
/-- `Proof::new` (lib.rs). -/
def new (numConstraints : Nat) : Proof := ⟨[], numConstraints + 1⟩
/-- Writing a line that introduces a constraint, with `Proof::new_id`. -/
def push (p : Proof) (l : Line) : Nat × Proof := (p.nextId, ⟨p.lines ++ [l], p.nextId + 1⟩)
/-- `Proof::operations`; writing an empty sequence panics (ops.rs l.154-162). -/
def operations (p : Proof) (ops : Ops) : Option (Nat × Proof) := if ops = [] then none else some (p.push (.pol ops))
/-- `Proof::reverse_unit_prop`. -/
def reverseUnitProp (p : Proof) (c : Constr) (hints : List Nat) : Nat × Proof := p.push (.rup c hints)
/-- `Proof::redundant` without a sub-proof. -/
def redundant (p : Proof) (c : Constr) (subst : List (Nat × Bool)) : Nat × Proof := p.push (.red c subst)
/-- `Proof::delete_ids` without a sub-proof. -/
def deleteIds (p : Proof) (ids : List Nat) : Proof := { p with lines := p.lines ++ [.del ids] }
end Proof

end Pigeons

open Pigeons

/-- `ConstraintLike for Clause` (src/types/constraints.rs l.350-370). -/
def Clause.constr (c : Clause) : Constr := ⟨c.map fun l => (1, l), 1⟩

/-- `ConstraintLike for CardConstraint` (src/types/constraints.rs l.927-985); equalities panic. -/
def CardConstraint.constr : CardConstraint → Option Constr
  | .ub lits b => some ⟨lits.map fun l => (1, l.neg), lits.length - b⟩
  | .lb lits b => some ⟨lits.map fun l => (1, l), b⟩
  | .eq _ _ => none

/-- `ConstraintLike for PbConstraint` (src/types/constraints.rs l.1656-1710); equalities panic. -/
def PbConstraint.constr : PbConstraint → Option Constr
  | .ub lits ws b => some ⟨lits.map fun x => (x.2, x.1.neg), ws - b⟩
  | .lb lits _ b => some ⟨lits.map fun x => (x.2, x.1), b⟩
  | .eq _ _ _ => none

end RustSat
