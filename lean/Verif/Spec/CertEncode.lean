import Verif.Spec.CertTotalizer
import Verif.Spec.EncodeConstr
import Verif.Model.CertEncode
/-
What it means that a constraint is encoded with proof logging.
-/
namespace RustSat
open Pigeons

/-- The checker, starting from the formula, accepts the proof and ends in state `s`. The id counter of the proof is the one
of the checker, and the variables in the proof are known to the variable manager. -/
structure CheckedProof {VM : Type} [ManageVars VM] (f : List Constr) (vm : VM) (p : Proof) (s : VeriPb.State) : Prop where
  run : VeriPb.run (VeriPb.start f) p.lines = some s
  next : s.next = p.nextId
  vars : ∀ v, s.mentions v → v < ManageVars.nUsed vm

/-- The constraint has the given id in the proof; an equality consists of a lower bound with that id and an upper bound
with the next one. -/
def CardConstraint.hasId (c : CardConstraint) (s : VeriPb.State) (id : Nat) : Prop :=
  match c with
  | .eq lits b =>
    s.get id = (CardConstraint.lb lits b).constr.map VeriPb.ofConstr ∧
      s.get (id + 1) = (CardConstraint.ub lits b).constr.map VeriPb.ofConstr
  | c => s.get id = c.constr.map VeriPb.ofConstr

/-- The new clauses come with ids of constraints that say the same. -/
def ClausesHaveIds (s : VeriPb.State) (new : List (Clause × Nat)) : Prop :=
  ∀ x ∈ new, ∃ d, s.get x.2 = some d ∧ ∀ b, d.sat b ↔ Clause.sat b x.1

/-- The encodings that the library offers for cardinality constraints with proof logging. -/
inductive CardCert.Offered {VM : Type} [ManageVars VM] : CardCert VM → Prop
  | totalizer : Offered totalizer
  | inverted (ce : CardCert VM) (h : Offered ce) : Offered (inverted ce)
  | double (u l : CardCert VM) (hu : Offered u) (hl : Offered l) : Offered (double u l)

end RustSat
