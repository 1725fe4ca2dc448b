import Verif.Spec.Gte
import Verif.Spec.CertTotalizer
import Verif.Model.CertGte
/-
Histories of operations on a generalized totalizer with proof logging.
-/
namespace RustSat
open Pigeons

/-- The operations of a history: certified operations on the encoder, or the user writes a line to the proof. -/
inductive CertGteOp (VM : Type) where
  | pb (op : GteOp VM)
  | line (l : Line)

/-- The state of the system: the encoder with variable manager, collected clauses with their ids, and proof; the
input formula; the ids of the constraints that do not come from the encoder and the variables that were substituted in
lines of the user; and the ghost state of `GteWorld`. -/
structure CertGteWorld (VM : Type) where
  enc : CertGte VM
  formula : List Constr
  userIds : List Nat
  subst : List Nat
  ins : List (Lit × Nat)
  own : List Nat
  ub : Nat → Prop

namespace CertGteWorld
variable {VM : Type} [ManageVars VM]

/-- The state without everything related to the proof. -/
def pb (w : CertGteWorld VM) : GteWorld VM := ⟨w.enc.gte, w.enc.vm, w.enc.cls.map (·.1), w.ins, w.own, w.ub⟩

/-- The state of the checker after reading the formula and all lines written so far; `none` if it rejects. -/
def checked (w : CertGteWorld VM) : Option VeriPb.State := VeriPb.run (VeriPb.start w.formula) w.enc.proof.lines

/-- The state after a call of a certified encoding function. -/
def encoded (w : CertGteWorld VM) (r : Option (CertGte VM)) (ub : Nat → Prop) : Option (CertGteWorld VM) :=
  r.map fun e => { w with enc := e, own := w.own ++ CardWorld.handedOut w.enc.vm e.vm, ub := ub }

/-- Performing an operation; `none` if it panics. Encoding operations are those with proof logging. -/
def step (w : CertGteWorld VM) : CertGteOp VM → Option (CertGteWorld VM)
  | .pb (.add lits) =>
    some { w with enc := { w.enc with gte := w.enc.gte.extend lits }, ins := w.ins ++ lits,
                  ub := fun b => w.ub b ∧ lits = [] }
  | .pb (.encodeUb r) => w.encoded (w.enc.encodeUb r) r.contains
  | .pb (.encodeUbChange r) =>
    w.encoded (w.enc.encodeUbChange r) fun b =>
      r.contains b ∨ (w.ub b ∧ ∀ x ∈ w.enc.gte.litBuffer, ∀ b', r.contains b' → b' < x.2)
  | .pb .reserve =>
    w.encoded ((w.enc.gte.reserve w.enc.vm).map fun (t, vm) => { w.enc with gte := t, vm := vm }) fun b =>
      w.ub b ∧ w.enc.gte.litBuffer = []
  | .pb (.rehash buffer) => some { w with enc := { w.enc with gte := { w.enc.gte with litBuffer := buffer } } }
  | .pb (.useVars vm) => some { w with enc := { w.enc with vm := vm } }
  | .line l =>
    some { w with enc := { w.enc with proof := w.enc.proof.write l },
                  userIds := l.addId w.enc.proof.nextId w.userIds,
                  subst := w.subst ++ l.substituted }

/-- What a user has to respect. For operations on the encoder this is as without proof logging; moreover, the sum of
the weights fits the type of coefficients. A line that the user writes has to be accepted by the checker, must not
delete constraints of the encoder, and must not use variables of the encoder that do not yet occur in the proof. -/
def allowed (w : CertGteWorld VM) : CertGteOp VM → Prop
  | .pb op =>
    w.pb.allowed op ∧
      match op with | .add lits => (w.ins.map (·.2)).sum + (lits.map (·.2)).sum < isizeMax | _ => True
  | .line l =>
    ∃ s s', w.checked = some s ∧ VeriPb.step s l = some s' ∧ (∀ id ∈ l.deleted, id ∈ w.userIds) ∧
      ∀ v ∈ l.vars, v < ManageVars.nUsed w.enc.vm ∧ (v ∉ w.own ∨ s.mentions v)

/-- A new encoder; the proof consists of the input formula. -/
def start (lits : List (Lit × Nat)) (vm : VM) (formula : List Constr) : CertGteWorld VM :=
  ⟨CertGte.new lits vm [] (Proof.new formula.length), formula, List.range' 1 formula.length, [], lits, [],
    fun _ => False⟩

/-- The states reachable by a history of allowed operations. The variables of the formula and of the input literals
are known to the variable manager. -/
inductive Reach : CertGteWorld VM → Prop
  | start (lits : List (Lit × Nat)) (vm : VM) (formula : List Constr) (hd : (lits.map (·.1)).Nodup)
      (hl : ∀ x ∈ lits, 0 < x.2 ∧ x.1.var < ManageVars.nUsed vm)
      (hf : ∀ c ∈ formula, ∀ t ∈ c.sum, t.2.var < ManageVars.nUsed vm) (hn : (lits.map (·.2)).sum < isizeMax) :
      Reach (start lits vm formula)
  | step (w w' : CertGteWorld VM) (op : CertGteOp VM) (h : Reach w) (ha : w.allowed op) (hs : w.step op = some w') :
      Reach w'

end CertGteWorld
end RustSat
