import Verif.Model.CertEncode
import Verif.Model.CertGte
/-
Model of encoding whole pseudo-Boolean constraints with proof logging: the encoding traits (src/encodings/pb/cert.rs
l.40-52, l.84-96, l.132-181), the simulators (src/encodings/pb/simulators.rs l.195-211, l.270-286, l.321-346,
l.656-674, l.714-732, l.747-753, l.1010-1028, l.1075-1092, l.1116-1138) and the function that chooses what to do (cert.rs
l.326-400).

The functions take a constraint with the id of that constraint in the proof. The state is the variable manager, the
collected clauses with their ids, and the proof. Of the errors only `Unsat` is modelled.
-/
namespace RustSat
open Pigeons Card

/-- `encode_ub_constr_cert`, `encode_lb_constr_cert` or `encode_eq_constr_cert`: weighted literals, the stored sum of
weights, the bound, the id. -/
abbrev PbFn (VM : Type) := List (Lit × Nat) → Nat → Int → Nat → VM → List (Clause × Nat) → Proof →
  Res EnforceError (VM × List (Clause × Nat) × Proof)

namespace PbFn
variable {VM : Type}

/-- `GeneralizedTotalizer::encode_ub_constr_cert` (gte/mod.rs l.409-482). `perm` stands for the order in which the hash
map is iterated. -/
def gte [ManageVars VM] (perm : LitMap → LitMap) : PbFn VM := fun lits _ b => CertGte.encodeUbConstr perm lits b

/-- `Inverted::encode_ub_constr_cert` (simulators.rs l.195-211). -/
def invertedUb (f : PbFn VM) : PbFn VM := fun lits ws b id vm cls p =>
  match PbConstraint.invertUb lits ws b with
  | .lb lits ws b => f lits ws b id vm cls p
  | _ => .panic

/-- `Inverted::encode_lb_constr_cert` (simulators.rs l.270-286). -/
def invertedLb (f : PbFn VM) : PbFn VM := fun lits ws b id vm cls p =>
  match PbConstraint.invertLb lits ws b with
  | .ub lits ws b => f lits ws b id vm cls p
  | _ => .panic

/-- `Card::encode_ub_constr_cert` (simulators.rs l.1010-1028). -/
def cardUb (ce : CardCert VM) : PbFn VM := fun lits ws b id vm cls p =>
  match (PbConstraint.ub lits ws b).extendToCardConstr with
  | .ub lits b => ce.ub lits b id vm cls p
  | _ => .panic

/-- `Card::encode_lb_constr_cert` (simulators.rs l.1075-1092). -/
def cardLb (ce : CardCert VM) : PbFn VM := fun lits ws b id vm cls p =>
  match (PbConstraint.lb lits ws b).extendToCardConstr with
  | .lb lits b => ce.lb lits b id vm cls p
  | _ => .panic

/-- The default `encode_eq_constr_cert` (pb/cert.rs l.132-153), which no encoding overrides: the lower bound has the given
id, the upper bound the next one. -/
def both (ub lb : PbFn VM) : PbFn VM := fun lits ws b id vm cls p =>
  match lb lits ws b id vm cls p with
  | .ok (vm, cls, p) => ub lits ws b (id + 1) vm cls p
  | r => r

/-- `encode_constr_cert` (pb/cert.rs l.160-181) of an encoding with the given functions for upper and lower bounds. For
`Double` (simulators.rs l.656-674, l.714-732, l.747-753) they are those of its parts. -/
def constr (ub lb : PbFn VM) (c : PbConstraint) (id : Nat) (vm : VM) (cls : List (Clause × Nat)) (p : Proof) :
    Res EnforceError (VM × List (Clause × Nat) × Proof) :=
  match c with
  | .ub lits ws b => ub lits ws b id vm cls p
  | .lb lits ws b => lb lits ws b id vm cls p
  | .eq lits ws b => both ub lb lits ws b id vm cls p

end PbFn

/-- The id used for negative assignments (pb/cert.rs l.366-368). -/
def PbConstraint.negId (c : PbConstraint) (id : Nat) : Nat :=
  match c with
  | .eq .. => id + 1
  | _ => id

/-- `encode_pb_constraint` (pb/cert.rs l.340-400); `none`: panic. -/
def encodePbCert {VM : Type} [ManageVars VM] (ub lb : PbFn VM) (c : PbConstraint) (id : Nat) (vm : VM)
    (cls : List (Clause × Nat)) (p : Proof) : Option (VM × List (Clause × Nat) × Proof) :=
  if c.isTautology then some (vm, cls, p)
  else if c.isUnsat then some (vm, rupClauses id [[]] cls p)
  else if c.isPositiveAssignment then some (vm, rupClauses id (c.lits.map fun x => [x.1]) cls p)
  else if c.isNegativeAssignment then some (vm, rupClauses (c.negId id) (c.lits.map fun x => [x.1.neg]) cls p)
  else if c.isClause then
    match c.intoClause with
    | .ok cl => some (vm, rupClauses id [cl] cls p)
    | _ => none
  else if c.isCard then
    match c.intoCardConstr with
    | .ok card => defaultEncodeCardCert card id vm cls p
    | _ => none
  else
    match PbFn.constr ub lb c id vm cls p with
    | .ok r => some r
    | _ => none

/-- `default_encode_pb_constraint` (pb/cert.rs l.326-333): `Double<GeneralizedTotalizer, Inverted<GeneralizedTotalizer>>`
(l.267-272). -/
def defaultEncodePbCert {VM : Type} [ManageVars VM] (perm : LitMap → LitMap) (c : PbConstraint) (id : Nat) (vm : VM)
    (cls : List (Clause × Nat)) (p : Proof) : Option (VM × List (Clause × Nat) × Proof) :=
  encodePbCert (PbFn.gte perm) (PbFn.invertedLb (PbFn.gte perm)) c id vm cls p

end RustSat
