import Verif.Spec.Totalizer
import Verif.Model.Gte
/-
Histories of operations on a generalized totalizer.
-/
namespace RustSat

/-- The operations in a history of using an incremental pseudo-boolean encoding for upper bounds. -/
inductive GteOp (VM : Type) where
  /-- adding weighted input literals -/
  | add (lits : List (Lit × Nat))
  | encodeUb (r : URange)
  | encodeUbChange (r : URange)
  | reserve
  /-- the order of iteration of the hash map in the encoder changes -/
  | rehash (buffer : LitMap)
  /-- the user uses the variable manager for other purposes -/
  | useVars (vm : VM)

/-- The state of the system: the encoder, the variable manager, all clauses collected so far, and — as ghost state —
all weighted input literals added so far, the variables that the manager handed out to the encoder, and the bounds
covered by calls to encode functions since literals were last added. -/
structure GteWorld (VM : Type) where
  gte : Gte
  vm : VM
  cls : ClauseSet
  ins : List (Lit × Nat)
  own : List Nat
  ub : Nat → Prop

namespace GteWorld
variable {VM : Type} [ManageVars VM]

/-- The state after an encoding call. -/
def encoded (w : GteWorld VM) (r : Option (Gte × VM × ClauseSet)) (ub : Nat → Prop) : Option (GteWorld VM) :=
  r.map fun (t, vm, cls) =>
    { gte := t, vm := vm, cls := cls, ins := w.ins, own := w.own ++ CardWorld.handedOut w.vm vm, ub := ub }

/-- Performing an operation; `none` if it panics. Adding literals makes all bounds unavailable. `encode_ub` forgets
about earlier calls. `encode_ub_change` adds to what is available, unless it has to include further literals, those
with weights in the new range. -/
def step (w : GteWorld VM) : GteOp VM → Option (GteWorld VM)
  | .add lits => some { w with gte := w.gte.extend lits, ins := w.ins ++ lits, ub := fun b => w.ub b ∧ lits = [] }
  | .encodeUb r => w.encoded (w.gte.encodeUb r w.vm w.cls) r.contains
  | .encodeUbChange r =>
    w.encoded (w.gte.encodeUbChange r w.vm w.cls) fun b =>
      r.contains b ∨ (w.ub b ∧ ∀ x ∈ w.gte.litBuffer, ∀ b', r.contains b' → b' < x.2)
  | .reserve =>
    w.encoded ((w.gte.reserve w.vm).map fun (t, vm) => (t, vm, w.cls)) fun b => w.ub b ∧ w.gte.litBuffer = []
  | .rehash buffer => some { w with gte := { w.gte with litBuffer := buffer } }
  | .useVars vm => some { w with vm := vm }

/-- What a user has to respect: weights are positive, the variables of input literals are known to the variable
manager and were not handed out to the encoder itself; the variable manager never forgets variables. -/
def allowed (w : GteWorld VM) : GteOp VM → Prop
  | .add lits => ∀ x ∈ lits, 0 < x.2 ∧ x.1.var < ManageVars.nUsed w.vm ∧ x.1.var ∉ w.own
  | .rehash buffer => buffer.Perm w.gte.litBuffer
  | .useVars vm => ManageVars.nUsed w.vm ≤ ManageVars.nUsed vm
  | _ => True

/-- A new encoder. -/
def start (lits : List (Lit × Nat)) (vm : VM) : GteWorld VM := ⟨Gte.new lits, vm, [], lits, [], fun _ => False⟩

/-- The states reachable by a history of allowed operations that satisfy `R`. A new encoder is created from distinct
literals, as in a hash map. -/
inductive Reach (R : GteOp VM → Prop) : GteWorld VM → Prop
  | start (lits : List (Lit × Nat)) (vm : VM) (hn : (lits.map (·.1)).Nodup)
      (h : ∀ x ∈ lits, 0 < x.2 ∧ x.1.var < ManageVars.nUsed vm) : Reach R (start lits vm)
  | step (w w' : GteWorld VM) (op : GteOp VM) (h : Reach R w) (hr : R op) (ha : w.allowed op)
      (hs : w.step op = some w') : Reach R w'

end GteWorld
end RustSat
