import Verif.Spec.CertGte
import Verif.Spec.CertEncodePb
import Verif.Model.CertInverted
/-
Histories of operations on the inverted generalized totalizer with proof logging, which offers lower bounds.
-/
namespace RustSat
open Pigeons

/-- The operations of a history. -/
inductive CertInvOp (VM : Type) where
  /-- adding weighted input literals -/
  | add (lits : List (Lit × Nat))
  | encodeLb (r : URange)
  | encodeLbChange (r : URange)
  /-- the user uses the variable manager for other purposes -/
  | useVars (vm : VM)
  /-- the user writes a line to the proof -/
  | line (l : Line)

/-- The state of the system: the simulator with variable manager, collected clauses with their ids and proof; the input
formula; the ids of constraints that do not come from the encoder; as ghost state all weighted input literals and the
variables handed out to the encoder. -/
structure CertInvWorld (VM : Type) where
  enc : Inverted (CertGte VM)
  formula : List Constr
  userIds : List Nat
  ins : List (Lit × Nat)
  own : List Nat

namespace CertInvWorld
variable {VM : Type} [ManageVars VM]

/-- The state of the checker after reading the formula and all lines written so far; `none` if it rejects. -/
def checked (w : CertInvWorld VM) : Option VeriPb.State := VeriPb.run (VeriPb.start w.formula) w.enc.enc.proof.lines

/-- The state after a call of an encoding function. -/
def encoded (w : CertInvWorld VM) (r : Option (Inverted (CertGte VM))) : Option (CertInvWorld VM) :=
  r.map fun e => { w with enc := e, own := w.own ++ CardWorld.handedOut w.enc.enc.vm e.enc.vm }

/-- Performing an operation; `none` if it panics. -/
def step (w : CertInvWorld VM) : CertInvOp VM → Option (CertInvWorld VM)
  | .add lits => some { w with enc := CertInv.extend w.enc lits, ins := w.ins ++ lits }
  | .encodeLb r => w.encoded (CertInv.encodeLb w.enc r)
  | .encodeLbChange r => w.encoded (CertInv.encodeLbChange w.enc r)
  | .useVars vm => some { w with enc := ⟨{ w.enc.enc with vm := vm }, w.enc.sum⟩ }
  | .line l =>
    some { w with enc := ⟨{ w.enc.enc with proof := w.enc.enc.proof.write l }, w.enc.sum⟩,
                  userIds := l.addId w.enc.enc.proof.nextId w.userIds }

/-- What a user has to respect. Added literals are distinct, as in a hash map. The range of a call does not end at zero, and
there are literals (otherwise there is an underflow, as without proof logging). A line that the user writes has to be
accepted by the checker, must not delete constraints of the encoder, and must not use variables of the encoder that do not
yet occur in the proof. -/
def allowed (w : CertInvWorld VM) : CertInvOp VM → Prop
  | .add lits =>
    (lits.map (·.1)).Nodup ∧ (∀ x ∈ lits, 0 < x.2 ∧ x.1.var < ManageVars.nUsed w.enc.enc.vm ∧ x.1.var ∉ w.own) ∧
      (w.ins.map (·.2)).sum + (lits.map (·.2)).sum < isizeMax
  | .encodeLb r => r.hi ≠ .excl 0 ∧ w.ins ≠ []
  | .encodeLbChange r => r.hi ≠ .excl 0 ∧ w.ins ≠ []
  | .useVars vm => ManageVars.nUsed w.enc.enc.vm ≤ ManageVars.nUsed vm
  | .line l =>
    ∃ s s', w.checked = some s ∧ VeriPb.step s l = some s' ∧ (∀ id ∈ l.deleted, id ∈ w.userIds) ∧
      ∀ v ∈ l.vars, v < ManageVars.nUsed w.enc.enc.vm ∧ (v ∉ w.own ∨ s.mentions v)

/-- A new encoder; the proof consists of the input formula. -/
def start (lits : List (Lit × Nat)) (vm : VM) (formula : List Constr) : CertInvWorld VM :=
  ⟨CertInv.new lits vm [] (Proof.new formula.length), formula, List.range' 1 formula.length, lits, []⟩

/-- The states reachable by a history of allowed operations. -/
inductive Reach : CertInvWorld VM → Prop
  | start (lits : List (Lit × Nat)) (vm : VM) (formula : List Constr) (hd : (lits.map (·.1)).Nodup)
      (hl : ∀ x ∈ lits, 0 < x.2 ∧ x.1.var < ManageVars.nUsed vm)
      (hf : ∀ c ∈ formula, ∀ t ∈ c.sum, t.2.var < ManageVars.nUsed vm) (hn : (lits.map (·.2)).sum < isizeMax) :
      Reach (start lits vm formula)
  | step (w w' : CertInvWorld VM) (op : CertInvOp VM) (h : Reach w) (ha : w.allowed op) (hs : w.step op = some w') : Reach w'

end CertInvWorld
end RustSat
