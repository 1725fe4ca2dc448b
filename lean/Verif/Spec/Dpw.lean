import Verif.Spec.Totalizer
import Verif.Model.Dpw
/-
Histories of operations on a dynamic polynomial watchdog.
-/
namespace RustSat

/-- The operations in a history of using a dynamic polynomial watchdog. -/
inductive DpwOp (VM : Type) where
  /-- adding an input literal -/
  | add (l : Lit) (weight : Nat)
  | setPrecision (divisor : Nat)
  | encodeUb (r : URange)
  | encodeUbChange (r : URange)
  | reserve
  /-- the user uses the variable manager for other purposes -/
  | useVars (vm : VM)

/-- The state of the system: the encoder, the variable manager, all clauses collected so far, and — as ghost state —
the weighted input literals, the variables that the manager handed out to the encoder, and the bounds covered by
calls to encode functions. -/
structure DpwWorld (VM : Type) where
  dpw : Dpw
  vm : VM
  cls : ClauseSet
  ins : List (Lit × Nat)
  own : List Nat
  ub : Nat → Prop

/-- The weights divided by the divisor of the precision (divisor 0 is the same as 1). -/
def divided (divisor : Nat) (ins : List (Lit × Nat)) : List (Lit × Nat) := ins.map fun x => (x.1, x.2 / max divisor 1)

namespace DpwWorld
variable {VM : Type} [ManageVars VM]

/-- The state after an encoding call. -/
def encoded (w : DpwWorld VM) (r : Option (Dpw × VM × ClauseSet)) (ub : Nat → Prop) : Option (DpwWorld VM) :=
  r.map fun (t, vm, cls) =>
    { dpw := t, vm := vm, cls := cls, ins := w.ins, own := w.own ++ CardWorld.handedOut w.vm vm, ub := ub }

/-- Performing an operation; `none` if it panics. Adding a literal after the first encoding is an error; before, there
are no bounds that could become unavailable. Changing the precision after the first encoding makes all bounds
unavailable until the next encoding. -/
def step (w : DpwWorld VM) : DpwOp VM → Option (DpwWorld VM)
  | .add l wt =>
    match w.dpw.addInput l wt with
    | some e => some { w with dpw := e, ins := w.ins ++ [(l, wt)], ub := fun _ => False }
    | none => some w
  | .setPrecision d =>
    match w.dpw.setPrecision d with
    | .ok e => some { w with dpw := e, ub := fun b => w.ub b ∧ (w.dpw.structure_ = none ∨ d = w.dpw.precDiv) }
    | .err _ => some w
    | .panic => none
  | .encodeUb r => w.encoded (w.dpw.encodeUb r w.vm w.cls) fun b => w.ub b ∨ r.contains b
  | .encodeUbChange r => w.encoded (w.dpw.encodeUbChange r w.vm w.cls) fun b => w.ub b ∨ r.contains b
  | .reserve => w.encoded ((w.dpw.reserve w.vm).map fun (t, vm) => (t, vm, w.cls)) w.ub
  | .useVars vm => some { w with vm := vm }

/-- What a user has to respect: every literal is added once with a positive weight, its variable is known to the
variable manager and was not handed out to the encoder itself; before the first encoding, the divisor of the precision is
not set above the largest weight; after the first encoding, the precision may be increased to at least the value of
`next_precision` (with a divisor of at least 1), unless it already is maximal, and calls of `set_precision` that are
rejected or change nothing are allowed; the variable manager never forgets variables. -/
def allowed (w : DpwWorld VM) : DpwOp VM → Prop
  | .add l wt => 0 < wt ∧ l.var < ManageVars.nUsed w.vm ∧ l.var ∉ w.own ∧ l ∉ w.ins.map (·.1)
  | .setPrecision d => (w.dpw.structure_ = none ∧ (d ≤ 1 ∨ ∃ x ∈ w.ins, d ≤ x.2)) ∨ (∃ x, w.dpw.setPrecision d = .err x) ∨
      d = w.dpw.precDiv ∨ (w.dpw.isMaxPrecision = false ∧ 1 ≤ d ∧ d ≤ w.dpw.nextPrecision)
  | .useVars vm => ManageVars.nUsed w.vm ≤ ManageVars.nUsed vm
  | _ => True

/-- The states reachable by a history of allowed operations that satisfy `R` in the state in which they are performed. A new encoder is created from distinct
literals of positive weights, as in a hash map, or without literals by `Default`. -/
inductive Reach (R : DpwWorld VM → DpwOp VM → Prop) : DpwWorld VM → Prop
  | start (lits : List (Lit × Nat)) (vm : VM) (e : Dpw) (hn : (lits.map (·.1)).Nodup)
      (h : ∀ x ∈ lits, 0 < x.2 ∧ x.1.var < ManageVars.nUsed vm) (he : Dpw.new lits = some e) :
      Reach R ⟨e, vm, [], lits, [], fun _ => False⟩
  | default (vm : VM) : Reach R ⟨Dpw.default, vm, [], [], [], fun _ => False⟩
  | step (w w' : DpwWorld VM) (op : DpwOp VM) (h : Reach R w) (hr : R w op) (ha : w.allowed op)
      (hs : w.step op = some w') : Reach R w'

end DpwWorld
end RustSat
