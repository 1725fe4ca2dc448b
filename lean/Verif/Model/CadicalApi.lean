import Verif.Model.Bindings
import Verif.Spec.Sem
/-
Model of the contracts of the CaDiCaL library (version 2.2.1, cadical/vendor/src/solver.cpp) and of the wrapper around it
(cadical/src/lib.rs, cadical/cpp-extension/ccadical_extension.cpp), including calls that run out of memory.

The library checks a contract at the beginning of every function (`REQUIRE`, contract.hpp l.58-99): in a debug build the
process is aborted if the contract is broken, in a release build the contracts are not checked and the behaviour is
undefined (cadical/build.rs l.330-345). Both is `Call.broken`. The result of a search and the moment at which memory runs
out are arguments. An exception (`std::bad_alloc`) is thrown by the internal part of the solver before the literal is
stored (a simplification), and leaves the state of the interface as it is at this moment.

Literals are not converted to integers (the conversion is part of C01 and C70). Bounded variable addition (option `factor`)
is switched off, which is the default; therefore every literal is a valid one. Callbacks are part of C73, proof tracers are
part of C87.
-/
namespace RustSat.CadicalApi

/-- `State` (cadical/vendor/src/cadical.hpp l.194-210), without initialisation and deletion. -/
inductive LState where
  | configuring
  | steady
  | adding
  | solving
  | satisfied
  | unsatisfied
  | inconclusive
deriving DecidableEq, Repr

/-- What the library stores that is seen through its interface: the state, the clauses, the literals of a clause without
the terminating zero, the constraint (`true` if it is terminated), the assumptions, the number of variables, the frozen
variables (as often as they are frozen), the model, the failed assumptions, and whether the constraint failed. -/
structure Lib where
  state : LState := .configuring
  clauses : ClauseSet := []
  openClause : Clause := []
  constr : Option (Clause × Bool) := none
  assumps : List Lit := []
  nVars : Nat := 0
  frozen : List Nat := []
  model : Asg := fun _ => false
  failed : List Lit := []
  constrFailed : Bool := false

/-- How a call of the library ends: a contract is broken, an exception because of memory, or a value. -/
inductive Call (α : Type) where
  | broken
  | oom (l : Lib)
  | ok (a : α) (l : Lib)

/-- `Call` in sequence. -/
def Call.bind {α β : Type} (c : Call α) (f : α → Lib → Call β) : Call β :=
  match c with
  | .broken => .broken
  | .oom l => .oom l
  | .ok a l => f a l

/-- What a search finds: a model, the failed assumptions and whether the constraint failed, nothing, or no memory. -/
inductive Answer where
  | sat (m : Asg)
  | unsat (failed : List Lit) (constr : Bool)
  | unknown
  | oom

namespace Lib

/-- `REQUIRE_VALID_STATE` (contract.hpp l.71-75; the states `VALID` of cadical.hpp l.207-208). -/
def valid (l : Lib) : Bool := l.state != .solving

/-- `transition_to_steady_state` (solver.cpp l.42-68). -/
def toSteady (l : Lib) : Lib :=
  match l.state with
  | .satisfied | .unsatisfied | .inconclusive => { l with state := .steady, assumps := [], constr := none }
  | _ => { l with state := .steady }

/-- The variable of a literal exists (`External::internalize`, external.cpp). -/
def touch (l : Lib) (x : Lit) : Lib := { l with nVars := max l.nVars (x.var + 1) }

/-- `Solver::add` of a literal (solver.cpp l.627-648); `mem` is false if it runs out of memory. -/
def add (l : Lib) (mem : Bool) (x : Lit) : Call Unit :=
  if !l.valid then .broken
  else if !mem then .oom l.toSteady
  else .ok () { l.toSteady.touch x with openClause := l.toSteady.openClause ++ [x], state := .adding }

/-- `Solver::add` of zero (solver.cpp l.627-648). -/
def addZero (l : Lib) (mem : Bool) : Call Unit :=
  if !l.valid then .broken
  else if !mem then .oom l.toSteady
  else .ok () { l.toSteady with clauses := l.toSteady.clauses ++ [l.toSteady.openClause], openClause := [] }

/-- The literals of the constraint that a further literal belongs to (`External::constrain`, external.cpp l.296-300). -/
def constrLits (l : Lib) : Clause :=
  match l.constr with
  | some (c, false) => c
  | _ => []

/-- `Solver::constrain` of a literal (solver.cpp l.707-720). -/
def constrain (l : Lib) (mem : Bool) (x : Lit) : Call Unit :=
  if !l.valid then .broken
  else if !mem then .oom l.toSteady
  else .ok () { l.toSteady.touch x with constr := some (l.toSteady.constrLits ++ [x], false), state := .adding }

/-- `Solver::constrain` of zero (solver.cpp l.707-720). -/
def constrainZero (l : Lib) (mem : Bool) : Call Unit :=
  if !l.valid then .broken
  else if !mem then .oom l.toSteady
  else .ok () { l.toSteady with constr := some (l.toSteady.constrLits, true) }

/-- `Solver::assume` (solver.cpp l.722-729). -/
def assume (l : Lib) (mem : Bool) (x : Lit) : Call Unit :=
  if !l.valid then .broken
  else if !mem then .oom l.toSteady
  else .ok () { l.toSteady.touch x with assumps := l.toSteady.assumps ++ [x] }

/-- What a search is about: the clauses, the constraint if it is terminated, and the assumptions. -/
def problem (l : Lib) : ClauseSet :=
  l.clauses ++ (match l.constr with | some (c, true) => [c] | _ => []) ++ l.assumps.map fun x => [x]

/-- `call_external_solve_and_check_results` (solver.cpp l.804-847). The exception leaves the state `SOLVING`. -/
def search (l : Lib) : Answer → Call SolverResult
  | .sat m => .ok .sat { l.toSteady with state := .satisfied, model := m }
  | .unsat f c => .ok .unsat { l.toSteady with state := .unsatisfied, failed := f, constrFailed := c }
  | .unknown => .ok .interrupted { l.toSteady with state := .inconclusive }
  | .oom => .oom { l.toSteady with state := .solving }

/-- `Solver::solve` (solver.cpp l.849-857) and `Solver::simplify` (l.859-873) with a number of rounds that is not
negative. -/
def solve (l : Lib) (a : Answer) : Call SolverResult :=
  if !l.valid || l.state == .adding then .broken else l.search a

/-- `Solver::propagate` (solver.cpp l.772-787). -/
def propagate (l : Lib) : Answer → Call SolverResult
  | a => if !l.valid then .broken else
    match a with
    | .oom => .oom l.toSteady
    | a => l.search a

/-- `Solver::implied` (solver.cpp l.789-800). -/
def implied (l : Lib) : Call Unit :=
  if l.state == .inconclusive || l.state == .satisfied then .ok () l else .broken

/-- `Solver::val` (solver.cpp l.875-895): the value of the literal (`External::ival`, external.hpp l.347-356). -/
def val (l : Lib) (x : Lit) : Call Bool :=
  if l.state == .satisfied then .ok (x.holds l.model) l else .broken

/-- `Solver::failed` (solver.cpp l.923-933). -/
def isFailed (l : Lib) (x : Lit) : Call Bool :=
  if l.state == .unsatisfied then .ok (l.failed.contains x) l else .broken

/-- `Solver::constraint_failed` (solver.cpp l.935-944). -/
def constraintFailed (l : Lib) : Call Bool :=
  if l.state == .unsatisfied then .ok l.constrFailed l else .broken

/-- `Solver::flip` (solver.cpp l.897-908); `m` is the model after the flip, if there is one. -/
def flip (l : Lib) (m : Option Asg) : Call Bool :=
  if l.state == .satisfied then
    match m with
    | some m => .ok true { l with model := m }
    | none => .ok false l
  else .broken

/-- `Solver::flippable` (solver.cpp l.910-921). -/
def flippable (l : Lib) (r : Bool) : Call Bool :=
  if l.state == .satisfied then .ok r l else .broken

/-- `Solver::phase`, `Solver::unphase` and `Solver::terminate` (solver.cpp l.955-978). -/
def phase (l : Lib) : Call Unit := .ok () l

/-- Functions that only require a valid state and change nothing that is modelled: `Solver::limit` (solver.cpp l.590-596),
`fixed` (l.946-953), `connect_terminator`, `disconnect_terminator`, `connect_learner`, `disconnect_learner` (l.980-1035),
`active`, `redundant`, `irredundant` (l.1141-1163). -/
def quiet (l : Lib) : Call Unit := if !l.valid then .broken else .ok () l

/-- `Solver::set` (solver.cpp l.548-562); `output` for the options `log`, `quiet`, `report` and `verbose`. -/
def set (l : Lib) (output : Bool) : Call Unit :=
  if !l.valid then .broken else if output || l.state == .configuring then .ok () l else .broken

/-- `Solver::configure` (solver.cpp l.613-623) and `Solver::trace_proof` (l.1210-1222). -/
def configure (l : Lib) : Call Unit := if l.state == .configuring then .ok () l else .broken

/-- `Solver::freeze` (solver.cpp l.1167-1173). -/
def freeze (l : Lib) (v : Nat) : Call Unit :=
  if !l.valid then .broken else .ok () { l with frozen := v :: l.frozen, nVars := max l.nVars (v + 1) }

/-- `Solver::melt` (solver.cpp l.1175-1183). -/
def melt (l : Lib) (v : Nat) : Call Unit :=
  if !l.valid || !l.frozen.contains v then .broken else .ok () { l with frozen := l.frozen.erase v }

/-- `Solver::frozen` (solver.cpp l.1185-1192). -/
def isFrozen (l : Lib) (v : Nat) : Call Bool := if !l.valid then .broken else .ok (l.frozen.contains v) l

/-- `Solver::resize` (solver.cpp l.479-486). -/
def resize (l : Lib) (mem : Bool) (n : Nat) : Call Unit :=
  if !l.valid then .broken
  else if !mem then .oom l.toSteady
  else .ok () { l.toSteady with nVars := max l.toSteady.nVars n }

/-- `Solver::declare_more_variables` (solver.cpp l.488-497). -/
def declareMore (l : Lib) (n : Nat) : Call Nat :=
  if !l.valid then .broken else .ok (l.toSteady.nVars + n) { l.toSteady with nVars := l.toSteady.nVars + n }

end Lib

/-! ### The wrapper -/

/-- `CaDiCaL` (cadical/src/lib.rs l.173-183), without callbacks and statistics. -/
structure Wrapper where
  lib : Lib := {}
  state : NState := .configuring

/-- Errors of the wrapper: out of memory (`handle_oom!`, lib.rs l.124-142), or another one. -/
inductive ApiErr where
  | outOfMemory
  | other (e : BindErr)
deriving DecidableEq, Repr

/-- How a call of the wrapper ends: the contract of the library is broken, or it returns. -/
inductive Out (α : Type) where
  | broken
  | ret (r : Except ApiErr α) (w : Wrapper)

/-- Continue with the value of a call of the library, in the wrapper state `s`; `handle_oom!` returns early. -/
def Call.thenDo {α β : Type} (c : Call α) (s : NState) (f : α → Lib → Out β) : Out β :=
  match c with
  | .broken => .broken
  | .oom l => .ret (.error .outOfMemory) ⟨l, s⟩
  | .ok a l => f a l

/-- A function of the library for each literal; memory runs out in the call with the number `k`. -/
def pass (f : Lib → Bool → Lit → Call Unit) : Lib → Option Nat → List Lit → Call (Option Nat)
  | l, k, [] => .ok k l
  | l, k, x :: xs => (f l (k != some 0) x).bind fun _ l => pass f l (k.map (· - 1)) xs

namespace Wrapper

/-- `StateError` if the wrapper is not in the state `Sat` or `Unsat`. -/
def stateErr (w : Wrapper) (req : SolverState) : Except ApiErr α := .error (.other (.state req w.state.toExternal))

/-- `add_clause_ref` (lib.rs l.775-790). Memory runs out in the call of the library with the number `k`, if at all. -/
def addClause (w : Wrapper) (k : Option Nat) (c : Clause) : Out Unit :=
  (pass Lib.add w.lib k c).thenDo .input fun k l =>
    (l.addZero (k != some 0)).thenDo .input fun _ l => .ret (.ok ()) ⟨l, .input⟩

/-- `add_tmp_clause` (lib.rs l.272-296). -/
def addTmp (w : Wrapper) (k : Option Nat) (c : Clause) : Out Unit :=
  (pass Lib.constrain w.lib k c).thenDo .input fun k l =>
    (l.constrainZero (k != some 0)).thenDo .input fun _ l => .ret (.ok ()) ⟨l, .input⟩

/-- `reserve` (lib.rs l.708-712). -/
def reserve (w : Wrapper) (mem : Bool) (v : Nat) : Out Unit :=
  (w.lib.resize mem (v + 1)).thenDo .input fun _ l => .ret (.ok ()) ⟨l, .input⟩

/-- `get_core_assumps` (lib.rs l.237-252). -/
def coreAssumps (l : Lib) : List Lit → Call (List Lit)
  | [] => .ok [] l
  | a :: as => (l.isFailed a).bind fun f l => (coreAssumps l as).bind fun core l =>
      .ok (if f then a.neg :: core else core) l

/-- The `match` over the result of a search in `solve`, `simplify` and `simplify_assumps` (lib.rs l.476-491, 534-558,
l.727-749). -/
def record (r : SolverResult) (l : Lib) : Out SolverResult :=
  match r with
  | .interrupted => .ret (.ok .interrupted) ⟨l, .input⟩
  | .sat => .ret (.ok .sat) ⟨l, .sat⟩
  | .unsat => .ret (.ok .unsat) ⟨l, .unsat []⟩

/-- `solve` (lib.rs l.714-750). -/
def solve (w : Wrapper) (a : Answer) : Out SolverResult :=
  match w.state with
  | .sat => .ret (.ok .sat) w
  | .unsat [] => .ret (.ok .unsat) w
  | s => (w.lib.solve a).thenDo s record

/-- `solve_assumps` (lib.rs l.794-824). -/
def solveAssumps (w : Wrapper) (k : Option Nat) (A : List Lit) (a : Answer) : Out SolverResult :=
  (pass Lib.assume w.lib k A).thenDo w.state fun _ l =>
    (l.solve a).thenDo w.state fun r l =>
      match r with
      | .interrupted => .ret (.ok .interrupted) ⟨l, .input⟩
      | .sat => .ret (.ok .sat) ⟨l, .sat⟩
      | .unsat => (coreAssumps l A).thenDo w.state fun core l => .ret (.ok .unsat) ⟨l, .unsat core⟩

/-- `simplify` (lib.rs l.473-501). -/
def simplify (w : Wrapper) (rounds : Nat) (a : Answer) : Out SolverResult :=
  match w.state with
  | .sat => .ret (.ok .sat) w
  | .unsat _ => .ret (.ok .unsat) w
  | s => if (rounds : Int) ≤ i32Max then (w.lib.solve a).thenDo s record else .ret (.error (.other .convert)) w

/-- `simplify_assumps` (lib.rs l.521-560). -/
def simplifyAssumps (w : Wrapper) (k : Option Nat) (A : List Lit) (rounds : Nat) (a : Answer) : Out SolverResult :=
  match w.state with
  | .sat => .ret (.ok .sat) w
  | .unsat _ => .ret (.ok .unsat) w
  | s =>
    if (rounds : Int) ≤ i32Max then
      (pass Lib.assume w.lib k A).thenDo s fun _ l => (l.solve a).thenDo s record
    else .ret (.error (.other .convert)) w

/-- `propagate` (lib.rs l.1079-1127), without the propagated literals; the result is whether there is a conflict. -/
def propagate (w : Wrapper) (k : Option Nat) (A : List Lit) (a : Answer) : Out Bool :=
  (pass Lib.assume w.lib k A).thenDo .input fun _ l =>
    (l.propagate a).thenDo .input fun r l =>
      match r with
      | .interrupted => l.implied.thenDo .input fun _ l => .ret (.ok false) ⟨l, .input⟩
      | .sat => l.implied.thenDo .sat fun _ l => .ret (.ok false) ⟨l, .sat⟩
      | .unsat => .ret (.ok true) ⟨l, .input⟩

/-- `lit_val` (lib.rs l.752-773). -/
def litVal (w : Wrapper) (x : Lit) : Out TernaryVal :=
  match w.state with
  | .sat => (w.lib.val x).thenDo w.state fun b l => .ret (.ok (if b then .true else .false)) ⟨l, .sat⟩
  | _ => .ret (w.stateErr .sat) w

/-- `core` (lib.rs l.826-835). -/
def core (w : Wrapper) : Out (List Lit) :=
  match w.state with
  | .unsat c => .ret (.ok c) w
  | _ => .ret (w.stateErr .unsat) w

/-- `tmp_clause_in_core` (lib.rs l.302-313). -/
def tmpInCore (w : Wrapper) : Out Bool :=
  match w.state with
  | .unsat c => w.lib.constraintFailed.thenDo w.state fun b l => .ret (.ok b) ⟨l, .unsat c⟩
  | _ => .ret (w.stateErr .unsat) w

/-- `flip_lit` (lib.rs l.999-1008). -/
def flip (w : Wrapper) (m : Option Asg) : Out Bool :=
  match w.state with
  | .sat => (w.lib.flip m).thenDo w.state fun b l => .ret (.ok b) ⟨l, .sat⟩
  | _ => .ret (w.stateErr .sat) w

/-- `is_flippable` (lib.rs l.1010-1019). -/
def flippable (w : Wrapper) (r : Bool) : Out Bool :=
  match w.state with
  | .sat => (w.lib.flippable r).thenDo w.state fun b l => .ret (.ok b) ⟨l, .sat⟩
  | _ => .ret (w.stateErr .sat) w

/-- A call of the library that leaves the state of the wrapper: `phase_lit`, `unphase_var` and `interrupt` with
`Lib.phase` (lib.rs l.963-979), `set_option` (l.358-369) with `Lib.set`, `trace_proof` (l.581-628) with `Lib.configure`,
`freeze_var` and `melt_var` (l.982-990), `attach_terminator`, `detach_terminator`, `attach_learner`, `detach_learner`
(l.871-941), `current_lit_val`, `get_active`, `get_irredundant` and `get_redundant` (l.424-449) with `Lib.quiet`. -/
def plain (w : Wrapper) (f : Lib → Call Unit) : Out Unit :=
  (f w.lib).thenDo w.state fun _ l => .ret (.ok ()) ⟨l, w.state⟩

/-- `set_configuration` (lib.rs l.322-343) with a known name. -/
def setConfiguration (w : Wrapper) : Out Unit :=
  match w.state with
  | .configuring => w.plain Lib.configure
  | _ => .ret (w.stateErr .configuring) w

/-- `limit_conflicts` and `limit_decisions` (lib.rs l.1023-1041). -/
def limit (w : Wrapper) (n : Option Nat) : Out Unit :=
  match n with
  | some n => if (n : Int) ≤ i32Max then w.plain Lib.quiet else .ret (.error (.other .convert)) w
  | none => w.plain Lib.quiet

/-- `is_frozen` (lib.rs l.992-994). -/
def isFrozen (w : Wrapper) (v : Nat) : Out Bool :=
  (w.lib.isFrozen v).thenDo w.state fun b l => .ret (.ok b) ⟨l, w.state⟩

/-- `declare_more_variables` (lib.rs l.645-655). The state of the wrapper is not changed. -/
def declareMore (w : Wrapper) (n : Nat) : Out Nat :=
  (w.lib.declareMore n).thenDo w.state fun v l => .ret (.ok v) ⟨l, w.state⟩

end Wrapper

end RustSat.CadicalApi
