import Verif.Model.CertGte
import Verif.Model.Bound
/-
Model of the simulator `Inverted` for the generalized totalizer with proof logging (src/encodings/pb/simulators.rs
l.66-100, l.236-268, l.417-442).
-/
namespace RustSat
open TotDb Pigeons Card

namespace CertInv
variable {VM : Type} [ManageVars VM]

/-- `FromIterator` (simulators.rs l.66-88); the hash map of negated literals. -/
def new (lits : List (Lit × Nat)) (vm : VM) (cls : List (Clause × Nat)) (p : Proof) : Inverted (CertGte VM) :=
  ⟨CertGte.new (LitMap.ofList ((LitMap.ofList lits).map fun x => (x.1.neg, x.2))) vm cls p,
    ((LitMap.ofList lits).map (·.2)).sum⟩

/-- `Extend` (simulators.rs l.90-100). -/
def extend (e : Inverted (CertGte VM)) (lits : List (Lit × Nat)) : Inverted (CertGte VM) :=
  ⟨{ e.enc with gte := e.enc.gte.extend (LitMap.ofList (lits.map fun x => (x.1.neg, x.2))) },
    e.sum + ((LitMap.ofList (lits.map fun x => (x.1.neg, x.2))).map (·.2)).sum⟩

/-- The common part of the two functions below. The range is prepared as for upper bounds, unlike without proof logging
(l.214-232). -/
def encodeWith (e : Inverted (CertGte VM)) (f : CertGte VM → URange → Option (CertGte VM)) (r : URange) :
    Option (Inverted (CertGte VM)) :=
  match e.convert (Pb.prepareUbRange e.sum r) with
  | none => none
  | some r => (f e.enc r).map fun enc => ⟨enc, e.sum⟩

/-- `encode_lb_cert` (simulators.rs l.249-268). -/
def encodeLb (e : Inverted (CertGte VM)) (r : URange) : Option (Inverted (CertGte VM)) := encodeWith e CertGte.encodeUb r

/-- `encode_lb_change_cert` (simulators.rs l.421-440). -/
def encodeLbChange (e : Inverted (CertGte VM)) (r : URange) : Option (Inverted (CertGte VM)) :=
  encodeWith e CertGte.encodeUbChange r

/-- `enforce_lb` (simulators.rs l.234-242). -/
def enforceLb (e : Inverted (CertGte VM)) (lb : Nat) : Res EnforceError (List Lit) :=
  if e.sum ≥ lb then e.enc.gte.enforceUb (e.sum - lb) else .err .unsat

end CertInv
end RustSat
