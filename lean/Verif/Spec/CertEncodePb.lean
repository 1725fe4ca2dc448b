import Verif.Spec.CertEncode
import Verif.Model.CertEncodePb
/-
What it means that a pseudo-Boolean constraint is encoded with proof logging, and for which constraints this works.
-/
namespace RustSat
open Pigeons

/-- The constraint has the given id in the proof; an equality consists of a lower bound with that id and an upper bound
with the next one. -/
def PbConstraint.hasId (c : PbConstraint) (s : VeriPb.State) (id : Nat) : Prop :=
  match c with
  | .eq lits ws b =>
    s.get id = (PbConstraint.lb lits ws b).constr.map VeriPb.ofConstr ∧
      s.get (id + 1) = (PbConstraint.ub lits ws b).constr.map VeriPb.ofConstr
  | c => s.get id = c.constr.map VeriPb.ofConstr

/-- The sum of the weights that do not exceed the bound. -/
def smallSum (lits : List (Lit × Nat)) (b : Nat) : Nat := ((lits.filter fun x => decide (x.2 ≤ b)).map (·.2)).sum

/-- The upper bounds that the generalized totalizer derives in the proof: either all literals fit below the bound, or the
literals whose weight does not exceed the bound can exceed it together, and their weights are not all the same unless they
are one. -/
def GteDerivable (lits : List (Lit × Nat)) (b : Nat) : Prop :=
  (lits.map (·.2)).sum ≤ b ∨
    b < smallSum lits b ∧ ((∀ x ∈ lits, x.2 ≤ b → x.2 = 1) ∨ ∃ x ∈ lits, ∃ y ∈ lits, x.2 ≤ b ∧ y.2 ≤ b ∧ x.2 ≠ y.2)

instance (lits : List (Lit × Nat)) (b : Nat) : Decidable (GteDerivable lits b) := by
  unfold GteDerivable; infer_instance

/-- The literals of the other sign. -/
def negWeighted (lits : List (Lit × Nat)) : List (Lit × Nat) := lits.map fun x => (x.1.neg, x.2)

mutual
/-- The ways to encode upper bounds with proof logging that the library offers, with the bounds for which they work. -/
inductive PbFn.OfferedUb {VM : Type} [ManageVars VM] : (List (Lit × Nat) → Nat → Prop) → PbFn VM → Prop
  | gte (perm : LitMap → LitMap) (h : ∀ m, (perm m).Perm m) : OfferedUb GteDerivable (gte perm)
  | card (ce : CardCert VM) (h : CardCert.Offered ce) : OfferedUb (fun _ _ => True) (cardUb ce)
  | inverted (D : List (Lit × Nat) → Nat → Prop) (f : PbFn VM) (h : OfferedLb D f) :
      OfferedUb (fun lits b => D (negWeighted lits) ((lits.map (·.2)).sum - b)) (invertedUb f)
/-- The ways to encode lower bounds with proof logging that the library offers, with the bounds for which they work. -/
inductive PbFn.OfferedLb {VM : Type} [ManageVars VM] : (List (Lit × Nat) → Nat → Prop) → PbFn VM → Prop
  | card (ce : CardCert VM) (h : CardCert.Offered ce) : OfferedLb (fun _ _ => True) (cardLb ce)
  | inverted (D : List (Lit × Nat) → Nat → Prop) (f : PbFn VM) (h : OfferedUb D f) :
      OfferedLb (fun lits b => D (negWeighted lits) ((lits.map (·.2)).sum - b)) (invertedLb f)
end

/-- The encoding works for the bounds of the constraint. -/
def PbConstraint.Within (Du Dl : List (Lit × Nat) → Nat → Prop) (c : PbConstraint) : Prop :=
  match c with
  | .ub lits _ b => Du lits b.natAbs
  | .lb lits _ b => Dl lits b.natAbs
  | .eq lits _ b => Dl lits b.natAbs ∧ Du lits b.natAbs

/-- No encoding is needed: the constraint is trivial, unsatisfiable, an assignment of its literals or a clause. -/
def PbConstraint.Direct (c : PbConstraint) : Prop :=
  c.isTautology = true ∨ c.isUnsat = true ∨ c.isPositiveAssignment = true ∨ c.isNegativeAssignment = true ∨ c.isClause = true

/-- The constraints that are encoded correctly with proof logging. The bound of an equality is not negative. If the
constraint is not `Direct` and all weights are the same, they are one; if they are not the same, the encoding works for the
bounds. -/
structure PbConstraint.Certifiable (Du Dl : List (Lit × Nat) → Nat → Prop) (c : PbConstraint) : Prop where
  reg : c.Regular
  nonneg : ∀ l ws b, c = .eq l ws b → 0 ≤ b
  card : c.Direct ∨ ∀ w, (∀ x ∈ c.lits, x.2 = w) → w = 1
  enc : c.Direct ∨ (∃ w, ∀ x ∈ c.lits, x.2 = w) ∨ c.Within Du Dl
  small : c.weightSum < isizeMax

end RustSat
