import Verif.Model.Bound
import Verif.Model.Instance
/-
Model of the functions that encode a whole constraint: `encode_constr` of the encoding traits, and
`encode_cardinality_constraint`, `encode_pb_constraint`, and of the conversion of instances to CNF.
Running out of memory is not modelled.
-/
namespace RustSat
open Card

/-- `.map(|unit| clause![unit])`. -/
def unitClauses (lits : List Lit) : ClauseSet := lits.map fun l => [l]

section
variable (E : Type) {ι VM : Type} [Encoder E ι]

/-- Encode and enforce one upper bound: the common part of `encode_ub_constr` (card/mod.rs l.100-110, pb/mod.rs
l.133-142). A panic is `none`: in the encoding function, or because `enforce_ub` is an error (`unwrap`). -/
def encodeOneUb [BoundUpper E VM] [EnforceUb E] (lits : List ι) (ub : Nat) (vm : VM) (cls : ClauseSet) :
    Option (VM × ClauseSet) :=
  match BoundUpper.encodeUb (Encoder.new lits : E) ⟨.incl ub, .incl ub⟩ vm cls with
  | none => none
  | some (e, vm, cls) =>
    match EnforceUb.enforceUb e ub with
    | .ok units => some (vm, cls ++ unitClauses units)
    | _ => none

/-- Encode and enforce one lower bound: the common part of `encode_lb_constr` (card/mod.rs l.160-169, pb/mod.rs
l.202-211). -/
def encodeOneLb [BoundLower E VM] [EnforceLb E] (lits : List ι) (lb : Nat) (vm : VM) (cls : ClauseSet) :
    Option (VM × ClauseSet) :=
  match BoundLower.encodeLb (Encoder.new lits : E) ⟨.incl lb, .incl lb⟩ vm cls with
  | none => none
  | some (e, vm, cls) =>
    match EnforceLb.enforceLb e lb with
    | .ok units => some (vm, cls ++ unitClauses units)
    | _ => none

/-- Encode and enforce one equality: the common part of `encode_eq_constr` (card/mod.rs l.227-236, pb/mod.rs
l.280-289). -/
def encodeOneEq [BoundBoth E VM] [EnforceEq E] (lits : List ι) (b : Nat) (vm : VM) (cls : ClauseSet) :
    Option (VM × ClauseSet) :=
  match BoundBoth.encodeBoth (Encoder.new lits : E) ⟨.incl b, .incl b⟩ vm cls with
  | none => none
  | some (e, vm, cls) =>
    match EnforceEq.enforceEq e b with
    | .ok units => some (vm, cls ++ unitClauses units)
    | _ => none

end

/-- A panic, or success. -/
def Res.ofOption {ε α : Type} : Option α → Res ε α
  | none => .panic
  | some x => .ok x

section
variable {VM : Type} [ManageVars VM]

section
variable (E : Type) [Encoder E Lit] [BoundUpper E VM] [EnforceUb E] [BoundLower E VM] [EnforceLb E] [BoundBoth E VM]
  [EnforceEq E]

/-- `card::BoundBoth::encode_constr` (card/mod.rs l.243-258) with `encode_ub_constr` (l.91-110), `encode_lb_constr`
(l.148-170), `encode_eq_constr` (l.215-237). The error is `Unsat`. -/
def CardConstraint.encodeConstr (c : CardConstraint) (vm : VM) (cls : ClauseSet) : Res Unit (VM × ClauseSet) :=
  match c with
  | .ub lits b => .ofOption (encodeOneUb E lits b vm cls)
  | .lb lits b => if b > lits.length then .err () else .ofOption (encodeOneLb E lits b vm cls)
  | .eq lits b => if b > lits.length then .err () else .ofOption (encodeOneEq E lits b vm cls)

/-- `encode_cardinality_constraint` (card/mod.rs l.410-450); `none`: panic. -/
def encodeCardinalityConstraint (c : CardConstraint) (vm : VM) (cls : ClauseSet) : Option (VM × ClauseSet) :=
  if c.isTautology then some (vm, cls)
  else if c.isUnsat then some (vm, cls ++ [[]])
  else if c.isPositiveAssignment then some (vm, cls ++ unitClauses c.lits)
  else if c.isNegativeAssignment then some (vm, cls ++ unitClauses (c.lits.map Lit.neg))
  else if c.isClause then
    match c.intoClause with
    | .ok cl => some (vm, cls ++ [cl])
    | _ => none
  else
    match c.encodeConstr E vm cls with
    | .ok r => some r
    | _ => none

end

/-- `default_encode_cardinality_constraint` (card/mod.rs l.394-403). -/
def defaultEncodeCard (c : CardConstraint) (vm : VM) (cls : ClauseSet) : Option (VM × ClauseSet) :=
  encodeCardinalityConstraint Totalizer c vm cls

section
variable (E : Type) [Encoder E (Lit × Nat)] [BoundUpper E VM] [EnforceUb E] [BoundLower E VM] [EnforceLb E]
  [BoundBoth E VM] [EnforceEq E]

/-- The sum of the weights, `lits.iter().fold(0, |sum, (_, w)| sum + w)` (pb/mod.rs l.199, l.275-277). -/
def litsWeight (lits : List (Lit × Nat)) : Nat := (lits.map (·.2)).sum

/-- `pb::BoundBoth::encode_constr` (pb/mod.rs l.296-312) with `encode_ub_constr` (l.120-143), `encode_lb_constr`
(l.187-212), `encode_eq_constr` (l.264-290). The error is `Unsat`. -/
def PbConstraint.encodeConstr (c : PbConstraint) (vm : VM) (cls : ClauseSet) : Res Unit (VM × ClauseSet) :=
  match c with
  | .ub lits _ b => if b < 0 then .err () else .ofOption (encodeOneUb E lits b.natAbs vm cls)
  | .lb lits _ b =>
    if b < 0 then .ok (vm, cls)
    else if b.natAbs > litsWeight lits then .err ()
    else .ofOption (encodeOneLb E lits b.natAbs vm cls)
  | .eq lits _ b =>
    if b < 0 then .err ()
    else if b.natAbs > litsWeight lits then .err ()
    else .ofOption (encodeOneEq E lits b.natAbs vm cls)

/-- `encode_pb_constraint` (pb/mod.rs l.462-498); `none`: panic. -/
def encodePbConstraint (c : PbConstraint) (vm : VM) (cls : ClauseSet) : Option (VM × ClauseSet) :=
  if c.isTautology then some (vm, cls)
  else if c.isUnsat then some (vm, cls ++ [[]])
  else if c.isPositiveAssignment then some (vm, cls ++ unitClauses (c.lits.map (·.1)))
  else if c.isNegativeAssignment then some (vm, cls ++ unitClauses (c.lits.map fun p => p.1.neg))
  else if c.isClause then
    match c.intoClause with
    | .ok cl => some (vm, cls ++ [cl])
    | _ => none
  else if c.isCard then
    match c.intoCardConstr with
    | .ok card => defaultEncodeCard card vm cls
    | _ => none
  else
    match c.encodeConstr E vm cls with
    | .ok r => some r
    | _ => none

end

/-- `default_encode_pb_constraint` (pb/mod.rs l.446-455). -/
def defaultEncodePb (c : PbConstraint) (vm : VM) (cls : ClauseSet) : Option (VM × ClauseSet) :=
  encodePbConstraint DoubleGte c vm cls

/-! ### Instances -/

/-- `drain(..).for_each(|constr| encoder(constr, &mut self.cnf, &mut self.var_manager))` (sat.rs l.692-698). -/
def encodeAll {α : Type} (enc : α → VM → ClauseSet → Option (VM × ClauseSet)) :
    List α → VM → ClauseSet → Option (VM × ClauseSet)
  | [], vm, cls => some (vm, cls)
  | c :: cs, vm, cls =>
    match enc c vm cls with
    | none => none
    | some (vm, cls) => encodeAll enc cs vm cls

namespace SatInstance

/-- `convert_to_cnf_with_encoders` (sat.rs l.684-699). -/
def convertToCnfWith (card : CardConstraint → VM → ClauseSet → Option (VM × ClauseSet))
    (pb : PbConstraint → VM → ClauseSet → Option (VM × ClauseSet)) (s : SatInstance VM) : Option (SatInstance VM) :=
  match encodeAll card s.cards s.vm s.cnf with
  | none => none
  | some (vm, cnf) =>
    match encodeAll pb s.pbs vm cnf with
    | none => none
    | some (vm, cnf) => some ⟨cnf, [], [], vm⟩

/-- `convert_to_cnf` (sat.rs l.642-653). -/
def convertToCnf (s : SatInstance VM) : Option (SatInstance VM) := s.convertToCnfWith defaultEncodeCard defaultEncodePb

/-- `into_cnf` (sat.rs l.621-632) with `into_cnf_with_encoders` (l.663-674). -/
def intoCnf (s : SatInstance VM) : Option (ClauseSet × VM) := s.convertToCnf.map fun s => (s.cnf, s.vm)

end SatInstance
end
end RustSat
