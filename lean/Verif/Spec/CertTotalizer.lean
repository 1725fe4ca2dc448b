import Verif.Spec.Totalizer
import Verif.Spec.Pigeons
import Verif.Model.CertTotalizer
/-
Histories of operations on a totalizer with proof logging: the certified functions of an encoder write to a proof
that belongs to an input formula; the user writes to the same proof.
-/
namespace RustSat
open Pigeons

namespace Pigeons

/-- The variables that occur in the constraint or in the literal axioms of a line. -/
def Line.vars : Line → List Nat
  | .pol ops => ops.filterMap fun op => match op with | .ax l => some l.var | _ => none
  | .rup c _ => c.sum.map fun t => t.2.var
  | .red c _ => c.sum.map fun t => t.2.var
  | .del _ => []

/-- The ids deleted by a line. -/
def Line.deleted : Line → List Nat
  | .del ids => ids
  | _ => []

/-- Recording the id of the constraint introduced by a line, if it introduces one. -/
def Line.addId (id : Nat) (ids : List Nat) : Line → List Nat
  | .del _ => ids
  | _ => id :: ids

end Pigeons

/-- A constraint in the database of the checker mentions a variable. -/
def VeriPb.State.mentions (s : VeriPb.State) (v : Nat) : Prop := ∃ d ∈ s.constrs, ∃ t ∈ d.terms, t.1 = v

/-- The operations of a history: certified operations on the encoder, or the user writes a line to the proof. -/
inductive CertOp (VM : Type) where
  | card (op : CardOp VM)
  | line (l : Line)

/-- The state of the system: the encoder with variable manager, collected clauses with their ids, and proof; the
input formula; the ids of the constraints that do not come from the encoder and the variables that were substituted in
lines of the user; and the ghost state of `CardWorld`. -/
structure CertWorld (VM : Type) where
  enc : CertTot VM
  formula : List Constr
  userIds : List Nat
  subst : List Nat
  ins : List Lit
  own : List Nat
  ub : Nat → Prop
  lb : Nat → Prop

namespace CertWorld
variable {VM : Type} [ManageVars VM]

/-- The state without everything related to the proof. -/
def card (w : CertWorld VM) : CardWorld VM :=
  ⟨w.enc.tot, w.enc.vm, w.enc.cls.map (·.1), w.ins, w.own, w.ub, w.lb⟩

/-- The state of the checker after reading the formula and all lines written so far; `none` if it rejects. -/
def checked (w : CertWorld VM) : Option VeriPb.State := VeriPb.run (VeriPb.start w.formula) w.enc.proof.lines

/-- The state after a call of a certified encoding function. -/
def encoded (w : CertWorld VM) (r : Option (CertTot VM)) (ub lb : Nat → Prop) : Option (CertWorld VM) :=
  r.map fun e => { w with enc := e, own := w.own ++ CardWorld.handedOut w.enc.vm e.vm, ub := ub, lb := lb }

/-- Performing an operation; `none` if it panics. Encoding operations are those with proof logging. -/
def step (w : CertWorld VM) : CertOp VM → Option (CertWorld VM)
  | .card (.add lits) =>
    some { w with enc := { w.enc with tot := w.enc.tot.extend lits }, ins := w.ins ++ lits,
                  ub := fun b => w.ub b ∧ lits = [], lb := fun b => w.lb b ∧ lits = [] }
  | .card (.encodeUb r) => w.encoded (w.enc.encodeUb r) r.contains w.lb
  | .card (.encodeUbChange r) => w.encoded (w.enc.encodeUbChange r) (fun b => w.ub b ∨ r.contains b) w.lb
  | .card (.encodeLb r) => w.encoded (w.enc.encodeLb r) w.ub r.contains
  | .card (.encodeLbChange r) => w.encoded (w.enc.encodeLbChange r) w.ub (fun b => w.lb b ∨ r.contains b)
  | .card (.encodeBoth r) =>
    w.encoded (w.enc.encodeBoth r) (fun b => w.ub b ∨ r.contains b) (fun b => w.lb b ∨ r.contains b)
  | .card .reserve =>
    w.encoded ((w.enc.tot.reserve w.enc.vm).map fun (t, vm) => { w.enc with tot := t, vm := vm }) w.ub w.lb
  | .card (.useVars vm) => some { w with enc := { w.enc with vm := vm } }
  | .line l =>
    some { w with enc := { w.enc with proof := w.enc.proof.write l },
                  userIds := l.addId w.enc.proof.nextId w.userIds,
                  subst := w.subst ++ l.substituted }

/-- What a user has to respect. For operations on the encoder this is as without proof logging; moreover, the number
of literals fits the type of coefficients. A line that the user writes has to be accepted by the checker, must not
delete constraints of the encoder, and must not use variables of the encoder that do not yet occur in the proof. -/
def allowed (w : CertWorld VM) : CertOp VM → Prop
  | .card op => w.card.allowed op ∧ match op with | .add lits => w.ins.length + lits.length < isizeMax | _ => True
  | .line l =>
    ∃ s s', w.checked = some s ∧ VeriPb.step s l = some s' ∧ (∀ id ∈ l.deleted, id ∈ w.userIds) ∧
      ∀ v ∈ l.vars, v < ManageVars.nUsed w.enc.vm ∧ (v ∉ w.own ∨ s.mentions v)

/-- A new encoder; the proof consists of the input formula. -/
def start (lits : List Lit) (vm : VM) (formula : List Constr) : CertWorld VM :=
  ⟨CertTot.new lits vm [] (Proof.new formula.length), formula, List.range' 1 formula.length, [], lits, [],
    fun _ => False, fun _ => False⟩

/-- The states reachable by a history of allowed operations. The variables of the formula and of the input literals
are known to the variable manager. -/
inductive Reach : CertWorld VM → Prop
  | start (lits : List Lit) (vm : VM) (formula : List Constr) (hl : ∀ l ∈ lits, l.var < ManageVars.nUsed vm)
      (hf : ∀ c ∈ formula, ∀ t ∈ c.sum, t.2.var < ManageVars.nUsed vm) (hn : lits.length < isizeMax) :
      Reach (start lits vm formula)
  | step (w w' : CertWorld VM) (op : CertOp VM) (h : Reach w) (ha : w.allowed op) (hs : w.step op = some w') : Reach w'

end CertWorld
end RustSat
