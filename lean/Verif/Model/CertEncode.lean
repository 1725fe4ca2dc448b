import Verif.Model.CertTotalizer
/-
Model of encoding whole cardinality constraints with proof logging: the encoding traits (src/encodings/card/cert.rs
l.38-51, l.76-90, l.124-176), the simulators (src/encodings/card/simulators.rs l.186-211, l.265-289, l.324-347,
l.650-668, l.712-730, l.739-745) and the function that chooses what to do (cert.rs l.312-380).

The functions take a constraint with the id of that constraint in the proof. The state is the variable manager, the
collected clauses with their ids, and the proof. Of the errors only `Unsat` is modelled.
-/
namespace RustSat
open Pigeons Card

/-- `encode_ub_constr_cert`, `encode_lb_constr_cert` and `encode_eq_constr_cert` of an encoding: literals, bound, id. -/
structure CardCert (VM : Type) where
  ub : List Lit → Nat → Nat → VM → List (Clause × Nat) → Proof → Res EnforceError (VM × List (Clause × Nat) × Proof)
  lb : List Lit → Nat → Nat → VM → List (Clause × Nat) → Proof → Res EnforceError (VM × List (Clause × Nat) × Proof)
  eq : List Lit → Nat → Nat → VM → List (Clause × Nat) → Proof → Res EnforceError (VM × List (Clause × Nat) × Proof)

namespace CardCert
variable {VM : Type}

/-- The default `encode_eq_constr_cert` (card/cert.rs l.124-142): the lower bound has the given id, the upper bound the
next one. -/
def defaultEq (ub lb : List Lit → Nat → Nat → VM → List (Clause × Nat) → Proof → Res EnforceError (VM × List (Clause × Nat) × Proof))
    (lits : List Lit) (b id : Nat) (vm : VM) (cls : List (Clause × Nat)) (p : Proof) :
    Res EnforceError (VM × List (Clause × Nat) × Proof) :=
  match ub lits b (id + 1) vm cls p with
  | .ok (vm, cls, p) => lb lits b id vm cls p
  | r => r

/-- The totalizer. -/
def totalizer [ManageVars VM] : CardCert VM := ⟨CertTot.encodeUbConstr, CertTot.encodeLbConstr, CertTot.encodeEqConstr⟩

/-- `Inverted::encode_ub_constr_cert` (simulators.rs l.186-211); `Unsat` is unreachable. -/
def invertedUb (ce : CardCert VM) (lits : List Lit) (b id : Nat) (vm : VM) (cls : List (Clause × Nat)) (p : Proof) :
    Res EnforceError (VM × List (Clause × Nat) × Proof) :=
  match CardConstraint.invertUb lits b with
  | some c =>
    match ce.lb c.lits c.bound id vm cls p with
    | .ok r => .ok r
    | _ => .panic
  | none => .panic

/-- `Inverted::encode_lb_constr_cert` (simulators.rs l.265-289). -/
def invertedLb (ce : CardCert VM) (lits : List Lit) (b id : Nat) (vm : VM) (cls : List (Clause × Nat)) (p : Proof) :
    Res EnforceError (VM × List (Clause × Nat) × Proof) :=
  match CardConstraint.invertLb lits b with
  | some c => ce.ub c.lits c.bound id vm cls p
  | none => .panic

/-- `Inverted` with the default for equalities (simulators.rs l.324-347). -/
def inverted (ce : CardCert VM) : CardCert VM := ⟨invertedUb ce, invertedLb ce, defaultEq (invertedUb ce) (invertedLb ce)⟩

/-- `Double` (simulators.rs l.650-668, l.712-730, l.739-745). -/
def double (u l : CardCert VM) : CardCert VM := ⟨u.ub, l.lb, defaultEq u.ub l.lb⟩

/-- `encode_constr_cert` (card/cert.rs l.150-176). -/
def constr (ce : CardCert VM) (c : CardConstraint) (id : Nat) (vm : VM) (cls : List (Clause × Nat)) (p : Proof) :
    Res EnforceError (VM × List (Clause × Nat) × Proof) :=
  match c with
  | .ub lits b => ce.ub lits b id vm cls p
  | .lb lits b => ce.lb lits b id vm cls p
  | .eq lits b => ce.eq lits b id vm cls p

end CardCert

/-- Deriving clauses by reverse unit propagation from the constraint with the given id and collecting them
(card/cert.rs l.341-369). -/
def rupClauses (id : Nat) : List Clause → List (Clause × Nat) → Proof → List (Clause × Nat) × Proof
  | [], cls, p => (cls, p)
  | c :: cs, cls, p =>
    let r := p.reverseUnitProp (Clause.constr c) [id]
    rupClauses id cs (cls ++ [(c, r.1)]) r.2

/-- `encode_cardinality_constraint` (card/cert.rs l.325-380); `none`: panic. -/
def encodeCardCert {VM : Type} (ce : CardCert VM) (c : CardConstraint) (id : Nat) (vm : VM) (cls : List (Clause × Nat))
    (p : Proof) : Option (VM × List (Clause × Nat) × Proof) :=
  if c.isTautology then some (vm, cls, p)
  else if c.isUnsat then some (vm, rupClauses id [[]] cls p)
  else if c.isPositiveAssignment then some (vm, rupClauses id (c.lits.map fun l => [l]) cls p)
  else if c.isNegativeAssignment then
    let id := match c with | .eq _ _ => id + 1 | _ => id
    some (vm, rupClauses id (c.lits.map fun l => [l.neg]) cls p)
  else if c.isClause then
    match c.intoClause with
    | .ok cl => some (vm, rupClauses id [cl] cls p)
    | _ => none
  else
    match ce.constr c id vm cls p with
    | .ok r => some r
    | _ => none

/-- `default_encode_cardinality_constraint` (card/cert.rs l.312-319). -/
def defaultEncodeCardCert {VM : Type} [ManageVars VM] (c : CardConstraint) (id : Nat) (vm : VM) (cls : List (Clause × Nat))
    (p : Proof) : Option (VM × List (Clause × Nat) × Proof) :=
  encodeCardCert CardCert.totalizer c id vm cls p

end RustSat
