import Verif.Model.PyApi
/-
What Python programs expect of sequences, iterators and variable managers.
-/
namespace RustSat

/-- The value of an end of a slice for a sequence of this length: negative numbers count from the end. -/
def pyEnd (len : Nat) (i : Int) : Int := if i < 0 then i + len else i

/-- The positions of a slice with a positive step: from the start, which is at least 0, up to but without the stop, in
steps. -/
def pyPositionsUp (len : Nat) (start stop : Option Int) (step : Int) : List Nat :=
  let lo := max 0 ((start.map (pyEnd len)).getD 0)
  let hi := (stop.map (pyEnd len)).getD len
  (List.range len).filter fun p => lo ≤ p ∧ (p : Int) < hi ∧ ((p : Int) - lo) % step = 0

/-- The positions of a slice with a negative step: from the start, which is at most the last position, down to but without
the stop, in steps. -/
def pyPositionsDown (len : Nat) (start stop : Option Int) (step : Int) : List Nat :=
  let lo := min ((len : Int) - 1) ((start.map (pyEnd len)).getD (len - 1))
  let hi := (stop.map (pyEnd len)).getD (-1)
  (List.range len).reverse.filter fun p => (p : Int) ≤ lo ∧ hi < p ∧ (lo - p) % (-step) = 0

/-- The elements at the positions. -/
def pyItems {α : Type} (xs : List α) (ps : List Nat) : List α := ps.filterMap fun p => xs[p]?

/-- Slices of lists in Python. -/
def pySlice {α : Type} (xs : List α) (start stop step : Option Int) : Option (List α) :=
  if step.getD 1 = 0 then none
  else if 0 < step.getD 1 then some (pyItems xs (pyPositionsUp xs.length start stop (step.getD 1)))
  else some (pyItems xs (pyPositionsDown xs.length start stop (step.getD 1)))

/-- The operations of a program on a clause or CNF formula and its iterators: changing the elements by a method that sets the
flag, extending a clause, `iter()` and `next()`. -/
inductive PyOp (α : Type) where
  | modify (f : List α → List α)
  | extend (xs : List α)
  | iter
  | next (k : Nat)

/-- The effect of an operation, and what `next` returns. -/
def PyOp.run {α : Type} (w : PyWorld α) : PyOp α → Option (PyRes (Option α)) × PyWorld α
  | .modify f => (none, { w with seq := w.seq.modify f })
  | .extend xs => (none, { w with seq := w.seq.extend xs })
  | .iter => (none, w.iter)
  | .next k => (some (w.next k).1, (w.next k).2)

/-- What the calls of `next` on one iterator return, in order. -/
def pyYields {α : Type} (k : Nat) : PyWorld α → List (PyOp α) → List (PyRes (Option α))
  | _, [] => []
  | w, op :: ops =>
    match op with
    | .next j => if j = k then (w.next j).1 :: pyYields k (w.next j).2 ops else pyYields k (w.next j).2 ops
    | op => pyYields k (op.run w).2 ops

/-- The operation does not change the elements. -/
def PyOp.reads {α : Type} : PyOp α → Prop
  | .modify _ => False
  | .extend _ => False
  | _ => True

/-- The operation is no call of `iter`. -/
def PyOp.notIter {α : Type} : PyOp α → Prop
  | .iter => False
  | _ => True

/-- The number of calls of `next` on the iterator. -/
def pyCalls {α : Type} (k : Nat) : List (PyOp α) → Nat
  | [] => 0
  | .next j :: ops => (if j = k then 1 else 0) + pyCalls k ops
  | _ :: ops => pyCalls k ops

/-- The operations on a variable manager. -/
inductive PyVmOp where
  | increaseUsed (n : Nat)
  | newVar

/-- The results of `new_var`, in order, and the variable manager at the end. -/
def pyVmRun : PyVarManager → List PyVmOp → List Nat × PyVarManager
  | m, [] => ([], m)
  | m, .increaseUsed n :: ops => pyVmRun (m.increaseUsed n).2 ops
  | m, .newVar :: ops => (m.newVar.1 :: (pyVmRun m.newVar.2 ops).1, (pyVmRun m.newVar.2 ops).2)

/-- The number that `n_used` should return, the highest number in use: the largest of the number at the start and the
arguments of `increase_used`, where `new_var` counts one up. -/
def pyVmUsed : Nat → List PyVmOp → Nat
  | n, [] => n
  | n, .increaseUsed k :: ops => pyVmUsed (max n k) ops
  | n, .newVar :: ops => pyVmUsed (n + 1) ops

end RustSat
