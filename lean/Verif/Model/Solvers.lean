import Verif.Model.SolverOutput
import Verif.Model.Dimacs
/-
Model of the simulator of incremental solvers (src/solvers/simulators.rs) and of the interface to external solver
executables (src/solvers/external.rs).

An operation that may fail returns `none` for an error, together with the state in which it leaves the object. Errors of
solvers carry no information in the model. CPU times and the average clause length are not modelled.
-/
namespace RustSat

/-- `SolverResult` (src/solvers/mod.rs l.597-604). -/
inductive SolverResult where
  | sat
  | unsat
  | interrupted
deriving DecidableEq, Repr

/-- `SolverState` (src/solvers/mod.rs l.570-581). -/
inductive SolverState where
  | configuring
  | input
  | sat
  | unsat
  | unknown
deriving DecidableEq, Repr

/-- The methods of `Solve` (src/solvers/mod.rs l.127-290) on which the simulator relies. `init k` is the solver that the
`k`-th call of `Initialize::init` returns: solvers need not be deterministic. -/
class Solve (S : Type) where
  init : Nat → S
  addClause : S → Clause → Option Unit × S
  solve : S → Option SolverResult × S
  litVal : S → Lit → Option TernaryVal

/-- `Solve::add_cnf_ref` (src/solvers/mod.rs l.287-289): stops at the first error. -/
def addCnf {S : Type} [Solve S] : S → ClauseSet → Option Unit × S
  | s, [] => (some (), s)
  | s, c :: cs =>
    match Solve.addClause s c with
    | (none, s) => (none, s)
    | (some (), s) => addCnf s cs

/-- `InternalSolverState` (src/solvers/simulators.rs l.12-19). -/
inductive SimState where
  | init
  | sat
  | unsat (core : List Lit)
  | unknown
deriving DecidableEq, Repr

/-- `InternalSolverState::to_external` (src/solvers/simulators.rs l.22-28). -/
def SimState.toExternal : SimState → SolverState
  | .init | .unknown => .input
  | .sat => .sat
  | .unsat _ => .unsat

/-- `SolverStats` (src/solvers/mod.rs l.492-507), without time and average length. -/
structure SolverStats where
  nSat : Nat := 0
  nUnsat : Nat := 0
  nTerminated : Nat := 0
  nClauses : Nat := 0
  maxVar : Option Nat := none
deriving DecidableEq, Repr

/-- `Incremental` (src/solvers/simulators.rs l.41-48). `inits` counts the calls of `Initialize::init`. -/
structure Incremental (S : Type) where
  solver : S
  state : SimState
  clauses : ClauseSet
  stats : SolverStats
  inits : Nat

namespace Incremental
variable {S : Type} [Solve S]

/-- `Incremental::default` (src/solvers/simulators.rs l.54-62). -/
def default : Incremental S := ⟨Solve.init 0, .init, [], {}, 1⟩

/-- `update_max_var` (src/solvers/simulators.rs l.74-82). -/
def updateMaxVar (mv : Option Nat) (c : Clause) : Option Nat :=
  some (c.foldl (fun m l => max m l.var) (mv.getD 0))

/-- `self.solver = Init::init(); self.solver.add_cnf_ref(&self.clauses)`. -/
def restart (i : Incremental S) : Option Unit × Incremental S :=
  let r := addCnf (Solve.init i.inits) i.clauses
  (r.1, { i with solver := r.2, inits := i.inits + 1 })

/-- Recording the result of a query (src/solvers/simulators.rs l.107-120, l.193-206). -/
def record (i : Incremental S) (core : List Lit) : SolverResult → Incremental S
  | .sat => { i with stats := { i.stats with nSat := i.stats.nSat + 1 }, state := .sat }
  | .unsat => { i with stats := { i.stats with nUnsat := i.stats.nUnsat + 1 }, state := .unsat core }
  | .interrupted => { i with stats := { i.stats with nTerminated := i.stats.nTerminated + 1 }, state := .unknown }

/-- The call of `solve` of the wrapped solver in both kinds of queries. -/
def query (i : Incremental S) (core : List Lit) : Option SolverResult × Incremental S :=
  match Solve.solve i.solver with
  | (none, s) => (none, { i with solver := s })
  | (some r, s) => (some r, record { i with solver := s } core r)

/-- `solve` (src/solvers/simulators.rs l.93-122). -/
def solve (i : Incremental S) : Option SolverResult × Incremental S :=
  match i.state with
  | .sat => (some .sat, i)
  | .unsat [] => (some .unsat, i)
  | .init => i.query []
  | _ =>
    match i.restart with
    | (none, i) => (none, i)
    | (some (), i) => i.query []

/-- `lit_val` (src/solvers/simulators.rs l.124-126). -/
def litVal (i : Incremental S) (l : Lit) : Option TernaryVal := Solve.litVal i.solver l

/-- `add_clause` and `add_clause_ref` (src/solvers/simulators.rs l.132-166). -/
def addClause (i : Incremental S) (c : Clause) : Option Unit × Incremental S :=
  let i := { i with stats := { i.stats with nClauses := i.stats.nClauses + 1, maxVar := updateMaxVar i.stats.maxVar c } }
  match (if i.state = .init then (some (), i) else restart { i with state := .init }) with
  | (none, i) => (none, i)
  | (some (), i) =>
    match Solve.addClause i.solver c with
    | (none, s) => (none, { i with solver := s })
    | (some (), s) => (some (), { i with solver := s, clauses := i.clauses ++ [c] })

/-- `solve_assumps` (src/solvers/simulators.rs l.183-208). -/
def solveAssumps (i : Incremental S) (assumps : List Lit) : Option SolverResult × Incremental S :=
  match (if i.state = .init then (some (), i) else i.restart) with
  | (none, i) => (none, i)
  | (some (), i) =>
    match addCnf i.solver (assumps.map fun l => [l]) with
    | (none, s) => (none, { i with solver := s })
    | (some (), s) => query { i with solver := s } (assumps.map Lit.neg)

/-- `core` (src/solvers/simulators.rs l.210-219): the error has the actual state. -/
def core (i : Incremental S) : Except SolverState (List Lit) :=
  match i.state with
  | .unsat core => .ok core
  | other => .error other.toExternal

end Incremental

/-! ### External solvers -/

/-- What a run of an external program yields: nothing if it cannot be started or is killed by a signal, else the exit
code and what it wrote. -/
abbrev Program := Text → Option Nat × Text

/-- `Solver` of external solvers with its state (src/solvers/external.rs l.128-151), without command and options for
input and output. -/
inductive External where
  | pre (cnf : ClauseSet) (nVars : Nat)
  | post (out : SolverOutput)
deriving DecidableEq

/-- Errors of external solvers. -/
inductive ExternalError where
  | state (required actual : SolverState)
  | output (e : SatSolverOutputError)
  | process
deriving DecidableEq

/-- `SolverOutput::result` (src/instances/fio/mod.rs l.202-208). -/
def SolverOutput.result : SolverOutput → SolverResult
  | .sat _ => .sat
  | .unsat => .unsat
  | .unknown => .interrupted

/-- `SolverOutput::state` (src/instances/fio/mod.rs l.210-216). -/
def SolverOutput.state : SolverOutput → SolverState
  | .sat _ => .sat
  | .unsat => .unsat
  | .unknown => .unknown

namespace External

/-- `Solver::new` (src/solvers/external.rs l.185-202). -/
def new : External := .pre [] 0

/-- `check_exit_code!` (src/solvers/external.rs l.325-335). -/
def exitOk : Option Nat → Bool
  | some c => c == 0 || c == 10 || c == 20
  | none => false

/-- `call_external` (src/solvers/external.rs l.337-427), with the file system and the pipes left out: the program gets
the written text and its output is parsed. A clause with a literal that cannot be written makes the call panic. -/
def callExternal (run : Program) (cnf : ClauseSet) (nVars : Nat) : Res ExternalError SolverOutput :=
  match Dimacs.writeCnfAnnotated cnf nVars with
  | none => .panic
  | some t =>
    match parseSatSolverOutput (run t).2 with
    | .err e => .err (.output e)
    | .panic => .panic
    | .ok out => if exitOk (run t).1 then .ok out else .err .process

/-- `solve` (src/solvers/external.rs l.234-255). -/
def solve (run : Program) (e : External) : Res ExternalError SolverResult × External :=
  match e with
  | .post out => (.err (.state .input out.state), e)
  | .pre cnf nVars =>
    match callExternal run cnf nVars with
    | .ok out => (.ok out.result, .post out)
    | .err err => (.err err, .post .unknown)
    | .panic => (.panic, .post .unknown)

/-- `lit_val` (src/solvers/external.rs l.257-269). -/
def litVal (e : External) (l : Lit) : Except ExternalError TernaryVal :=
  match e with
  | .pre _ _ => .error (.state .sat .input)
  | .post (.sat sol) => .ok (sol.litValue l)
  | .post out => .error (.state .sat out.state)

/-- `solution` (src/solvers/external.rs l.278-290). -/
def solution (e : External) (highVar : Nat) : Except ExternalError Assignment :=
  match e with
  | .pre _ _ => .error (.state .sat .input)
  | .post (.sat sol) => .ok (sol.truncate highVar)
  | .post out => .error (.state .sat out.state)

/-- `add_clause` (src/solvers/external.rs l.292-305). -/
def addClause (e : External) (c : Clause) : Res ExternalError Unit × External :=
  match e with
  | .post out => (.err (.state .input out.state), e)
  | .pre cnf nVars => (.ok (), .pre (cnf ++ [c]) (c.foldl (fun n l => max (l.var + 1) n) nVars))

end External
end RustSat
