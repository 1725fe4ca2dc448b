import Verif.Model.OpSeq
/-
Specification of operation sequences: expressions and their operations in reverse polish notation.
-/
namespace RustSat
namespace Pigeons

/-- What a user does to a sequence. The flag says whether the assigning operator is used. -/
inductive SeqExpr where
  | empty
  | op (o : Op)
  | add (assign : Bool) (a b : SeqExpr)
  | mul (a : SeqExpr) (k : Nat)
  | div (a : SeqExpr) (k : Nat)
  | saturate (a : SeqExpr)
  | weaken (a : SeqExpr)

namespace SeqExpr
/-- The program's value. -/
def run : SeqExpr → SeqRes
  | .empty => .ok .empty
  | .op o => .ok (.singleton o)
  | .add assign a b => match a.run, b.run with
    | .ok s, .ok r => .ok (if assign then s.addAssign r else s.add r)
    | _, _ => .panic
  | .mul a k => match a.run with
    | .ok s => .ok (s.mul k)
    | _ => .panic
  | .div a k => match a.run with
    | .ok s => s.div k
    | _ => .panic
  | .saturate a => match a.run with
    | .ok s => .ok s.saturate
    | _ => .panic
  | .weaken a => match a.run with
    | .ok s => .ok s.weaken
    | _ => .panic

/-- The operations of the expression in reverse polish notation, as lists: an operation on nothing is nothing,
a sum with nothing is the other operand, a product with zero is nothing and one with one is the other factor.
The result is `none` if a non-empty sequence is divided by zero. -/
def polish : SeqExpr → Option (List Op)
  | .empty => some []
  | .op o => some [o]
  | .add _ a b => match a.polish, b.polish with
    | some x, some y => some (if x = [] then y else if y = [] then x else x ++ y ++ [.add])
    | _, _ => none
  | .mul a k => match a.polish with
    | some x => some (if k = 0 ∨ x = [] then [] else if k = 1 then x else x ++ [.mult k])
    | none => none
  | .div a k => match a.polish with
    | some x => if x = [] then some [] else if k = 0 then none else some (x ++ [.div k])
    | none => none
  | .saturate a => a.polish.map fun x => if x = [] then [] else x ++ [.sat]
  | .weaken a => a.polish.map fun x => if x = [] then [] else x ++ [.weak]
end SeqExpr

namespace IntOpSeq
/-- The special cases are used exactly for sequences of that length. -/
def Canon : IntOpSeq → Prop
  | .sequence seq => 2 ≤ seq.length
  | _ => True

end IntOpSeq

end Pigeons
end RustSat
