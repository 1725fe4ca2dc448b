import Verif.Spec.Bound
import Verif.Model.Adder
/-
Histories of operations on a binary adder.
-/
namespace RustSat

/-- The operations in a history of using the binary adder. `EncodeIncremental::reserve` is not among them, see
`C34_violated_reserve_panics`. -/
inductive AdderOp (VM : Type) where
  /-- adding weighted input literals -/
  | add (lits : List (Lit × Nat))
  | encodeUb (r : URange)
  | encodeUbChange (r : URange)
  | encodeLb (r : URange)
  | encodeLbChange (r : URange)
  /-- `encode_both` or `encode_both_change`, which are the same -/
  | encodeBoth (r : URange)
  /-- the order of iteration of the hash map in the encoder changes -/
  | rehash (buffer : LitMap)
  /-- the user uses the variable manager for other purposes -/
  | useVars (vm : VM)

/-- The state of the system: the encoder, the variable manager, all clauses collected so far, and — as ghost state —
all weighted input literals added so far, the variables that the manager handed out to the encoder, the bounds
covered by calls to encode functions since literals were last added, and whether lower bounds were encoded after the
last call to `encode_ub`. -/
structure AdderWorld (VM : Type) where
  enc : BinaryAdder
  vm : VM
  cls : ClauseSet
  ins : List (Lit × Nat)
  own : List Nat
  ub : Nat → Prop
  lb : Nat → Prop
  lbSince : Bool

namespace AdderWorld
variable {VM : Type} [ManageVars VM]

/-- The state after an encoding call. -/
def encoded (w : AdderWorld VM) (r : Option (BinaryAdder × VM × ClauseSet)) (ub lb : Nat → Prop) (lbSince : Bool) :
    Option (AdderWorld VM) :=
  r.map fun (e, vm, cls) =>
    { enc := e, vm := vm, cls := cls, ins := w.ins, own := w.own ++ CardWorld.handedOut w.vm vm, ub := ub, lb := lb,
      lbSince := lbSince }

/-- Performing an operation; `none` if it panics. Adding literals makes all bounds unavailable. A lower bound `b` is not
encoded if the upper bound `b - 1` was encoded before. -/
def step (w : AdderWorld VM) : AdderOp VM → Option (AdderWorld VM)
  | .add lits =>
    some { w with enc := w.enc.extend lits, ins := w.ins ++ lits, ub := fun b => w.ub b ∧ lits = [],
                  lb := fun b => w.lb b ∧ lits = [] }
  | .encodeUb r => w.encoded (w.enc.encodeUb r w.vm w.cls) (fun b => w.ub b ∨ r.contains b) w.lb false
  | .encodeUbChange r => w.encoded (w.enc.encodeUbChange r w.vm w.cls) (fun b => w.ub b ∨ r.contains b) w.lb w.lbSince
  | .encodeLb r =>
    w.encoded (w.enc.encodeLb r w.vm w.cls) w.ub (fun b => w.lb b ∨ (r.contains b ∧ ¬ w.ub (b - 1))) true
  | .encodeLbChange r =>
    w.encoded (w.enc.encodeLbChange r w.vm w.cls) w.ub (fun b => w.lb b ∨ (r.contains b ∧ ¬ w.ub (b - 1))) true
  | .encodeBoth r =>
    w.encoded (w.enc.encodeBoth r w.vm w.cls) (fun b => w.ub b ∨ r.contains b)
      (fun b => w.lb b ∨ (r.contains b ∧ ¬ w.ub (b - 1) ∧ ¬ r.contains (b - 1))) true
  | .rehash buffer => some { w with enc := { w.enc with litBuffer := buffer } }
  | .useVars vm => some { w with vm := vm }

/-- What a user has to respect: weights are positive, the variables of input literals are known to the variable
manager and were not handed out to the encoder itself; the variable manager never forgets variables. -/
def allowed (w : AdderWorld VM) : AdderOp VM → Prop
  | .add lits => ∀ x ∈ lits, 0 < x.2 ∧ x.1.var < ManageVars.nUsed w.vm ∧ x.1.var ∉ w.own
  | .rehash buffer => buffer.Perm w.enc.litBuffer
  | .useVars vm => ManageVars.nUsed w.vm ≤ ManageVars.nUsed vm
  | _ => True

/-- Upper bounds are not encoded incrementally after lower bounds. -/
def ubSafe (w : AdderWorld VM) : AdderOp VM → Prop
  | .encodeUbChange _ => w.lbSince = false
  | .encodeBoth _ => w.lbSince = false
  | _ => True

/-- A new encoder. -/
def start (lits : List (Lit × Nat)) (vm : VM) : AdderWorld VM :=
  ⟨BinaryAdder.new lits, vm, [], lits, [], fun _ => False, fun _ => False, false⟩

/-- The states reachable by a history of allowed operations that satisfy `R`. A new encoder is created from distinct
literals, as in a hash map. -/
inductive Reach (R : AdderWorld VM → AdderOp VM → Prop) : AdderWorld VM → Prop
  | start (lits : List (Lit × Nat)) (vm : VM) (hn : (lits.map (·.1)).Nodup)
      (h : ∀ x ∈ lits, 0 < x.2 ∧ x.1.var < ManageVars.nUsed vm) : Reach R (start lits vm)
  | step (w w' : AdderWorld VM) (op : AdderOp VM) (h : Reach R w) (hr : R w op) (ha : w.allowed op)
      (hs : w.step op = some w') : Reach R w'

end AdderWorld
end RustSat
