import Verif.Spec.Totalizer
import Verif.Spec.Gte
import Verif.Spec.Dpw
/-
What may happen between reserving variables and encoding.
-/
namespace RustSat

namespace CardWorld
variable {VM : Type} [ManageVars VM]

/-- The states reachable from `w` by allowed operations that do not add input literals. -/
inductive Since (w : CardWorld VM) : CardWorld VM → Prop
  | here : Since w w
  | step (w1 w2 : CardWorld VM) (op : CardOp VM) (h : Since w w1) (hn : ∀ lits, op ≠ .add lits) (ha : w1.allowed op)
      (hs : w1.step op = some w2) : Since w w2

/-- Calls to encode functions. -/
def isEncode : CardOp VM → Prop
  | .encodeUb _ | .encodeUbChange _ | .encodeLb _ | .encodeLbChange _ | .encodeBoth _ => True
  | _ => False

end CardWorld

namespace GteWorld
variable {VM : Type} [ManageVars VM]

/-- The states reachable from `w` by allowed operations that do not add input literals. -/
inductive Since (w : GteWorld VM) : GteWorld VM → Prop
  | here : Since w w
  | step (w1 w2 : GteWorld VM) (op : GteOp VM) (h : Since w w1) (hn : ∀ lits, op ≠ .add lits) (ha : w1.allowed op)
      (hs : w1.step op = some w2) : Since w w2

/-- Calls to encode functions. -/
def isEncode : GteOp VM → Prop
  | .encodeUb _ | .encodeUbChange _ => True
  | _ => False

end GteWorld

namespace DpwWorld
variable {VM : Type} [ManageVars VM]

/-- The states reachable from `w` by allowed operations that neither add input literals nor set the precision. -/
inductive Since (w : DpwWorld VM) : DpwWorld VM → Prop
  | here : Since w w
  | step (w1 w2 : DpwWorld VM) (op : DpwOp VM) (h : Since w w1) (hn : ∀ l wt, op ≠ .add l wt) (hp : ∀ d, op ≠ .setPrecision d)
      (ha : w1.allowed op) (hs : w1.step op = some w2) : Since w w2

/-- Calls to encode functions. -/
def isEncode : DpwOp VM → Prop
  | .encodeUb _ | .encodeUbChange _ => True
  | _ => False

/-- The precision was not changed after the encoding was built or last extended. -/
def precise (w : DpwWorld VM) : Prop := ∀ s, w.dpw.structure_ = some s → s.precDiv = w.dpw.precDiv

end DpwWorld
end RustSat
