import Verif.Model.Cnf
import Verif.Model.VarManager
/-
The Python interface to literals, clauses, CNF formulas and variable managers (pyapi/src/types.rs, pyapi/src/instances.rs),
built without debug assertions. How Python calls the functions (PyO3, conversion of arguments) is not modelled, except that an
integer is extracted as `i32`. A panic in Rust becomes a `PanicException`, which Python programs are not meant to handle.
-/
namespace RustSat

/-- What a call from Python returns: a value, an exception, or a panic. -/
inductive PyRes (α : Type) where
  | ok (a : α)
  | typeError
  | valueError
  | runtimeError
  | panic
deriving DecidableEq, Repr

/-- `Lit.__new__` (pyapi/src/types.rs l.41-45) for an argument that fits a `c_int`. -/
def pyLit (z : Int) : PyRes Lit :=
  match Lit.fromIpasir z with
  | .ok l => .ok l
  | .err _ => .valueError
  | .panic => .panic

/-- `Lit.to_ipasir` (pyapi/src/types.rs l.61-71). -/
def pyToIpasir (l : Lit) : PyRes Int :=
  if (l.var : Int) + 1 ≤ i32Max then .ok (if l.isNeg then -((l.var : Int) + 1) else (l.var : Int) + 1) else .panic

/-- The classes `Clause` (pyapi/src/types.rs l.74-80) and `Cnf` (pyapi/src/instances.rs l.64-69), which share their code up to
names: the elements and the flag `modified`. -/
structure PySeq (α : Type) where
  items : List α
  modified : Bool
deriving DecidableEq, Repr

/-- The argument of `__getitem__`: an integer, a slice or something else. The numbers of a slice are those of an `isize`. -/
inductive PyIndex where
  | int (i : Int)
  | slice (start stop step : Option Int)
  | other
deriving DecidableEq, Repr

/-- `SingleOrList` (pyapi/src/lib.rs l.25-29). -/
inductive SingleOrList (α : Type) where
  | single (a : α)
  | list (as : List α)
deriving DecidableEq, Repr

/-- `i as usize`. -/
def asUsize (i : Int) : Nat := (i % 18446744073709551616).toNat

/-- The end of a slice in `PySlice_AdjustIndices` of CPython. -/
def adjustIndex (len : Nat) (step i : Int) : Int :=
  let i := if i < 0 then i + len else i
  if i < 0 then (if step < 0 then -1 else 0)
  else if (len : Int) ≤ i then (if step < 0 then (len : Int) - 1 else len)
  else i

/-- `PySlice::indices` (PyO3), that is `PySlice_Unpack` and `PySlice_AdjustIndices` of CPython: start, stop and step; `none`
for a `ValueError` because of step zero. -/
def sliceIndices (len : Nat) (start stop step : Option Int) : Option (Int × Int × Int) :=
  let step := step.getD 1
  if step = 0 then none
  else
    some (match start with | some i => adjustIndex len step i | none => if step < 0 then (len : Int) - 1 else 0,
      match stop with | some i => adjustIndex len step i | none => if step < 0 then -1 else len,
      step)

/-- `(lo..hi).step_by(step)`. -/
def stepBy (lo hi step : Nat) : List Nat :=
  (List.range (if lo < hi then (hi - lo + step - 1) / step else 0)).map fun n => lo + n * step

namespace PySeq
variable {α : Type}

/-- The elements at the positions; `none` if one is out of bounds (a panic). -/
def gather (xs : List α) : List Nat → Option (List α)
  | [] => some []
  | i :: is =>
    match xs[i]? with
    | none => none
    | some x => (gather xs is).map (x :: ·)

/-- `new` (pyapi/src/types.rs l.143-147, pyapi/src/instances.rs l.129-137). -/
def new (xs : List α) : PySeq α := ⟨xs, false⟩

/-- `__len__` (pyapi/src/types.rs l.157-159, pyapi/src/instances.rs l.143-145). -/
def len (s : PySeq α) : Nat := s.items.length

/-- The positions of a slice (pyapi/src/types.rs l.168-177, pyapi/src/instances.rs l.157-166). -/
def getSlice (s : PySeq α) : Option (Int × Int × Int) → PyRes (SingleOrList α)
  | none => .valueError
  | some (start, stop, step) =>
    match gather s.items (stepBy (asUsize start) (asUsize stop) (asUsize step)) with
    | some xs => .ok (.list xs)
    | none => .panic

/-- `__getitem__` (pyapi/src/types.rs l.161-181, pyapi/src/instances.rs l.147-170). -/
def getItem (s : PySeq α) : PyIndex → PyRes (SingleOrList α)
  | .int i =>
    if i < i32Min ∨ i32Max < i then .typeError
    else if i < 0 then .panic
    else
      match s.items[i.toNat]? with
      | some x => .ok (.single x)
      | none => .panic
  | .slice start stop step => s.getSlice (sliceIndices s.len start stop step)
  | .other => .typeError

/-- The methods that set the flag and then change the elements. -/
def modify (s : PySeq α) (f : List α → List α) : PySeq α := ⟨f s.items, true⟩

/-- `Clause.extend` (pyapi/src/types.rs l.191-194), which does not set the flag. -/
def extend (s : PySeq α) (xs : List α) : PySeq α := { s with items := s.items ++ xs }

/-- `__eq__` (pyapi/src/types.rs l.105-109, l.196-198, pyapi/src/instances.rs l.86-90, l.246-248). -/
def eq [DecidableEq α] (s t : PySeq α) : Bool := s.items = t.items

end PySeq

/-! ### Clauses -/

namespace PyClause

/-- `add` (pyapi/src/types.rs l.125-128). -/
def add (c : PySeq Lit) (l : Lit) : PySeq Lit := c.modify fun cl => cl ++ [l]
/-- `remove` (pyapi/src/types.rs l.132-135). -/
def remove (c : PySeq Lit) (l : Lit) : Bool × PySeq Lit :=
  ((Clause.remove c.items l).2, c.modify fun cl => (Clause.remove cl l).1)
/-- `remove_thorough` (pyapi/src/types.rs l.138-141). -/
def removeThorough (c : PySeq Lit) (l : Lit) : Bool × PySeq Lit :=
  ((Clause.removeThorough c.items l).2, c.modify fun cl => (Clause.removeThorough cl l).1)
/-- `extend` (pyapi/src/types.rs l.191-194). -/
def extend (c : PySeq Lit) (ls : List Lit) : PySeq Lit := c.extend ls
/-- `is_unit` (pyapi/src/types.rs l.115-117). -/
def isUnit (c : PySeq Lit) : Bool := c.items.length == 1
/-- `is_binary` (pyapi/src/types.rs l.120-122). -/
def isBinary (c : PySeq Lit) : Bool := c.items.length == 2

end PyClause

/-! ### CNF formulas -/

namespace PyCnf

/-- `add_clause` (pyapi/src/instances.rs l.96-99). -/
def addClause (f : PySeq Clause) (c : PySeq Lit) : PySeq Clause := f.modify fun g => Cnf.addClause g c.items
/-- `add_unit` (pyapi/src/instances.rs l.102-105). -/
def addUnit (f : PySeq Clause) (l : Lit) : PySeq Clause := f.modify fun g => Cnf.addClause g [l]
/-- `add_binary` (pyapi/src/instances.rs l.108-112). -/
def addBinary (f : PySeq Clause) (l m : Lit) : PySeq Clause := f.modify fun g => Cnf.addClause g (Cnf.orOp [l] [m])
/-- `add_ternary` (pyapi/src/instances.rs l.115-127). -/
def addTernary (f : PySeq Clause) (l m n : Lit) : PySeq Clause :=
  f.modify fun g => Cnf.addClause g (Cnf.orOp (Cnf.orOp [l] [m]) [n])
/-- `add_lit_impl_lit` (pyapi/src/instances.rs l.173-176). -/
def addLitImplLit (f : PySeq Clause) (a b : Lit) : PySeq Clause := f.modify fun g => Cnf.addLitImplLit g a b
/-- `add_lit_impl_clause` (pyapi/src/instances.rs l.179-183). -/
def addLitImplClause (f : PySeq Clause) (a : Lit) (b : List Lit) : PySeq Clause := f.modify fun g => Cnf.addLitImplClause g a b
/-- `add_lit_impl_cube` (pyapi/src/instances.rs l.186-190). -/
def addLitImplCube (f : PySeq Clause) (a : Lit) (b : List Lit) : PySeq Clause := f.modify fun g => Cnf.addLitImplCube g a b
/-- `add_cube_impl_lit` (pyapi/src/instances.rs l.193-197). -/
def addCubeImplLit (f : PySeq Clause) (a : List Lit) (b : Lit) : PySeq Clause := f.modify fun g => Cnf.addCubeImplLit g a b
/-- `add_clause_impl_lit` (pyapi/src/instances.rs l.200-204). -/
def addClauseImplLit (f : PySeq Clause) (a : List Lit) (b : Lit) : PySeq Clause := f.modify fun g => Cnf.addClauseImplLit g a b
/-- `add_cube_impl_clause` (pyapi/src/instances.rs l.207-212). -/
def addCubeImplClause (f : PySeq Clause) (a b : List Lit) : PySeq Clause := f.modify fun g => Cnf.addCubeImplClause g a b
/-- `add_clause_impl_clause` (pyapi/src/instances.rs l.215-220). -/
def addClauseImplClause (f : PySeq Clause) (a b : List Lit) : PySeq Clause := f.modify fun g => Cnf.addClauseImplClause g a b
/-- `add_clause_impl_cube` (pyapi/src/instances.rs l.223-228). -/
def addClauseImplCube (f : PySeq Clause) (a b : List Lit) : PySeq Clause := f.modify fun g => Cnf.addClauseImplCube g a b
/-- `add_cube_impl_cube` (pyapi/src/instances.rs l.231-236). -/
def addCubeImplCube (f : PySeq Clause) (a b : List Lit) : PySeq Clause := f.modify fun g => Cnf.addCubeImplCube g a b

end PyCnf

/-! ### Iterators -/

/-- A clause or CNF formula with the iterators over it that exist: `ClauseIter` (pyapi/src/types.rs l.205-209) and `CnfIter`
(pyapi/src/instances.rs l.255-259) have an index. -/
structure PyWorld (α : Type) where
  seq : PySeq α
  iters : List Nat
deriving DecidableEq, Repr

namespace PyWorld
variable {α : Type}

/-- `__iter__` (pyapi/src/types.rs l.183-189, pyapi/src/instances.rs l.238-244): a new iterator, at the end of the list. -/
def iter (w : PyWorld α) : PyWorld α := ⟨{ w.seq with modified := false }, w.iters ++ [0]⟩

/-- `__next__` (pyapi/src/types.rs l.217-228, pyapi/src/instances.rs l.267-280) of the iterator with this number; `ok none`
ends the iteration. -/
def next (w : PyWorld α) (k : Nat) : PyRes (Option α) × PyWorld α :=
  if w.seq.modified then (.runtimeError, w)
  else
    match w.seq.items[w.iters.getD k 0]? with
    | some x => (.ok (some x), { w with iters := w.iters.set k (w.iters.getD k 0 + 1) })
    | none => (.ok none, w)

end PyWorld

/-! ### Variable managers -/

/-- `VarManager` (pyapi/src/instances.rs l.6-10). -/
structure PyVarManager where
  vm : BasicVM
deriving DecidableEq, Repr

namespace PyVarManager

/-- `VarManager.__new__` (pyapi/src/instances.rs l.39-43) for numbers up to `Var::MAX_IDX`. -/
def new (nUsed : Nat) : PyVarManager := ⟨BasicVM.fromNextFree nUsed⟩
/-- `increase_used` (pyapi/src/instances.rs l.46-48). -/
def increaseUsed (m : PyVarManager) (nUsed : Nat) : Bool × PyVarManager :=
  ((ManageVars.increaseNextFree m.vm nUsed).1, ⟨(ManageVars.increaseNextFree m.vm nUsed).2⟩)
/-- `new_var` (pyapi/src/instances.rs l.51-54). -/
def newVar (m : PyVarManager) : Nat × PyVarManager := ((ManageVars.newVar m.vm).1 + 1, ⟨(ManageVars.newVar m.vm).2⟩)
/-- `n_used` (pyapi/src/instances.rs l.57-59). -/
def nUsed (m : PyVarManager) : Nat := ManageVars.nUsed m.vm

end PyVarManager
end RustSat
