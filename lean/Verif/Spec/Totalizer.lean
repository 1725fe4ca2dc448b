import Verif.Spec.Sem
import Verif.Model.Totalizer
/-
Histories of operations on a totalizer: what a user can do with an encoder, a collector and a variable manager.
-/
namespace RustSat

/-- The bounds in a range (`RangeBounds::contains`). -/
def URange.contains (r : URange) (b : Nat) : Prop :=
  (match r.lo with | .incl x => x ≤ b | .excl x => x < b | .unbounded => True) ∧
    match r.hi with | .incl x => b ≤ x | .excl x => b < x | .unbounded => True

/-- The operations in a history of using an incremental cardinality encoding. -/
inductive CardOp (VM : Type) where
  /-- adding input literals -/
  | add (lits : List Lit)
  | encodeUb (r : URange)
  | encodeUbChange (r : URange)
  | encodeLb (r : URange)
  | encodeLbChange (r : URange)
  | encodeBoth (r : URange)
  | reserve
  /-- the user uses the variable manager for other purposes -/
  | useVars (vm : VM)

/-- The state of the system: the encoder, the variable manager, all clauses collected so far, and — as ghost state —
all input literals added so far, the variables that the manager handed out to the encoder, and the upper and lower
bounds covered by calls to encode functions since literals were last added. -/
structure CardWorld (VM : Type) where
  tot : Totalizer
  vm : VM
  cls : ClauseSet
  ins : List Lit
  own : List Nat
  ub : Nat → Prop
  lb : Nat → Prop

namespace CardWorld
variable {VM : Type} [ManageVars VM]

/-- The variables handed out between two states of a variable manager. -/
def handedOut (vm vm' : VM) : List Nat :=
  List.range' (ManageVars.nUsed vm) (ManageVars.nUsed vm' - ManageVars.nUsed vm)

/-- The state after an encoding call. -/
def encoded (w : CardWorld VM) (r : Option (Totalizer × VM × ClauseSet)) (ub lb : Nat → Prop) :
    Option (CardWorld VM) :=
  r.map fun (t, vm, cls) =>
    { tot := t, vm := vm, cls := cls, ins := w.ins, own := w.own ++ handedOut w.vm vm, ub := ub, lb := lb }

/-- Performing an operation; `none` if it panics. Adding literals makes all bounds unavailable; `encode_ub` and
`encode_lb` forget about earlier calls, the other calls add to what is available. -/
def step (w : CardWorld VM) : CardOp VM → Option (CardWorld VM)
  | .add lits =>
    some { w with tot := w.tot.extend lits, ins := w.ins ++ lits, ub := fun b => w.ub b ∧ lits = [],
                  lb := fun b => w.lb b ∧ lits = [] }
  | .encodeUb r => w.encoded (w.tot.encodeUb r w.vm w.cls) r.contains w.lb
  | .encodeUbChange r => w.encoded (w.tot.encodeUbChange r w.vm w.cls) (fun b => w.ub b ∨ r.contains b) w.lb
  | .encodeLb r => w.encoded (w.tot.encodeLb r w.vm w.cls) w.ub r.contains
  | .encodeLbChange r => w.encoded (w.tot.encodeLbChange r w.vm w.cls) w.ub (fun b => w.lb b ∨ r.contains b)
  | .encodeBoth r =>
    w.encoded (w.tot.encodeBoth r w.vm w.cls) (fun b => w.ub b ∨ r.contains b) (fun b => w.lb b ∨ r.contains b)
  | .reserve => w.encoded ((w.tot.reserve w.vm).map fun (t, vm) => (t, vm, w.cls)) w.ub w.lb
  | .useVars vm => some { w with vm := vm }

/-- What a user has to respect: the variables of input literals are known to the variable manager and were not
handed out to the encoder itself; the variable manager never forgets variables. -/
def allowed (w : CardWorld VM) : CardOp VM → Prop
  | .add lits => ∀ l ∈ lits, l.var < ManageVars.nUsed w.vm ∧ l.var ∉ w.own
  | .useVars vm => ManageVars.nUsed w.vm ≤ ManageVars.nUsed vm
  | _ => True

/-- A new encoder. -/
def start (lits : List Lit) (vm : VM) : CardWorld VM := ⟨Totalizer.new lits, vm, [], lits, [], fun _ => False, fun _ => False⟩

/-- The states reachable by a history of allowed operations that satisfy `R`. -/
inductive Reach (R : CardOp VM → Prop) : CardWorld VM → Prop
  | start (lits : List Lit) (vm : VM) (h : ∀ l ∈ lits, l.var < ManageVars.nUsed vm) : Reach R (start lits vm)
  | step (w w' : CardWorld VM) (op : CardOp VM) (h : Reach R w) (hr : R op) (ha : w.allowed op)
      (hs : w.step op = some w') : Reach R w'

end CardWorld
end RustSat
