import Verif.Model.Pigeons
/-
Model of the representation of operation sequences in `pigeons` (pigeons/src/ops.rs l.12-223, l.294-324), which has
special cases for empty and singleton sequences. `Verif.Model.Pigeons` has lists instead.
-/
namespace RustSat
namespace Pigeons

/-- `IntOpSeq` (ops.rs l.18-26). -/
inductive IntOpSeq where
  | empty
  | singleton (op : Op)
  | sequence (ops : List Op)
deriving DecidableEq, Repr

/-- The value of a call on a sequence: the new sequence or a panic. -/
abbrev SeqRes := Res Empty IntOpSeq

namespace IntOpSeq

/-- The `match std::mem::take(self)` in `extend` (ops.rs l.33-40, l.59-66). -/
def collect (s : IntOpSeq) (items : List Op) : List Op :=
  match s with
  | .empty => items
  | .singleton op => [op] ++ items
  | .sequence seq => seq ++ items

/-- `push` (ops.rs l.120-129), and the `match` in `extend` (l.49-56). -/
def push (s : IntOpSeq) (op : Op) : IntOpSeq :=
  match s with
  | .empty => .singleton op
  | .singleton op1 => .sequence [op1, op]
  | .sequence seq => .sequence (seq ++ [op])

/-- `Extend<Operation> for IntOpSeq` (ops.rs l.28-73), for an iterator over `items` with the size hint
`(lo, hi)`. The debug assertion is not modelled. -/
def extend (s : IntOpSeq) (lo : Nat) (hi : Option Nat) (items : List Op) : IntOpSeq :=
  if lo > 1 then .sequence (s.collect items)
  else if hi = some 1 then
    match items with
    | [] => s
    | next :: _ => s.push next
  else
    match s.collect items with
    | [] => .empty
    | [op] => .singleton op
    | seq => .sequence seq

/-- `IntoIterator for IntOpSeq` and `OpSeqIter` (ops.rs l.75-103): the items in turn. -/
def items : IntOpSeq → List Op
  | .empty => []
  | .singleton op => [op]
  | .sequence seq => seq

/-- `is_empty` (ops.rs l.116-118). -/
def isEmpty : IntOpSeq → Bool
  | .empty => true
  | _ => false

/-- `self.0.extend(rhs.0)`: `OpSeqIter` has the size hint `(0, None)` of the trait `Iterator`. -/
def extendSeq (s r : IntOpSeq) : IntOpSeq := s.extend 0 none r.items

/-- `saturate` (ops.rs l.133-138). -/
def saturate (s : IntOpSeq) : IntOpSeq := if !s.isEmpty then s.push .sat else s
/-- `weaken` (ops.rs l.140-145). -/
def weaken (s : IntOpSeq) : IntOpSeq := if !s.isEmpty then s.push .weak else s
/-- `Mul<usize>` and `MulAssign<usize>` (ops.rs l.164-200). -/
def mul (s : IntOpSeq) (rhs : Nat) : IntOpSeq :=
  if rhs = 0 then .empty
  else if !s.isEmpty && decide (rhs > 1) then s.push (.mult rhs) else s
/-- `Div<usize>` and `DivAssign<usize>` (ops.rs l.202-223): panics for zero, unless the sequence is empty. -/
def div (s : IntOpSeq) (rhs : Nat) : SeqRes :=
  if !s.isEmpty then (if rhs = 0 then .panic else .ok (s.push (.div rhs))) else .ok s
/-- `Add` (ops.rs l.294-309); ids and axioms are first made sequences (l.326-424). -/
def add (s r : IntOpSeq) : IntOpSeq :=
  if s.isEmpty then r else if r.isEmpty then s else (s.extendSeq r).push .add
/-- `AddAssign` (ops.rs l.311-324). -/
def addAssign (s r : IntOpSeq) : IntOpSeq :=
  let wasEmpty := s.isEmpty
  if r.isEmpty then s
  else
    let s := s.extendSeq r
    if wasEmpty then s else s.push .add

/-- `Display for OperationSequence` (ops.rs l.154-162): which operations are written, in turn. -/
def written : IntOpSeq → Res Empty (List Op)
  | .empty => .panic
  | .singleton op => .ok [op]
  | .sequence seq => .ok seq

end IntOpSeq
end Pigeons
end RustSat
