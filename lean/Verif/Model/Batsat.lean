import Verif.Model.Bindings
/-
The wrapper of BatSat (batsat/src/lib.rs). The solver itself is another crate; its functions that the wrapper calls are the
class `BatLib`. Time and the average length of clauses (a floating point number) are not modelled.
-/
namespace RustSat

/-- `batsat::Lit`: a variable and a sign, `true` for positive literals. -/
structure BatLit where
  var : Nat
  sign : Bool
deriving DecidableEq, Repr

/-- The functions of `batsat::Solver` that the wrapper calls (batsat/src/lib.rs l.106, l.110, l.115-131, l.187, l.207, l.216,
l.235, l.277, l.281). `value` is `none` if the function panics. -/
class BatLib (H : Type) where
  init : H
  numVars : H → Nat
  numClauses : H → Nat
  newVar : H → H
  varOfInt : H → Nat → Nat × H
  addClause : H → List BatLit → H
  solve : H → List BatLit → Option Bool × H
  value : H → BatLit → Option (Option Bool)
  core : H → List BatLit

/-- `InternalSolverState` (batsat/src/lib.rs l.40-46). -/
inductive BatState where
  | input
  | sat
  | unsat (underAssumps : Bool)
deriving DecidableEq, Repr

/-- `InternalSolverState::to_external` (batsat/src/lib.rs l.48-56). -/
def BatState.toExternal : BatState → SolverState
  | .input => .input
  | .sat => .sat
  | .unsat _ => .unsat

/-- `Solver` (batsat/src/lib.rs l.58-68). -/
structure Batsat (H : Type) where
  internal : H
  state : BatState
  nSat : Nat
  nUnsat : Nat
  nTerminated : Nat

namespace Batsat
variable {H : Type} [BatLib H]

/-- `Solver::default` (batsat/src/lib.rs l.59). -/
def new : Batsat H := ⟨BatLib.init, .input, 0, 0, 0⟩

/-- The literals in the representation of BatSat (batsat/src/lib.rs l.104-107, l.203-205); variables are created. -/
def convert : H → List Lit → List BatLit × H
  | h, [] => ([], h)
  | h, l :: ls =>
    let (v, h) := BatLib.varOfInt h l.var
    let (bs, h) := convert h ls
    (⟨v, !l.isNeg⟩ :: bs, h)

/-- The treatment of the result in `solve_track_stats` (batsat/src/lib.rs l.110-128). -/
def record (n : Batsat H) (assumps : Bool) : Option Bool × H → SolverResult × Batsat H
  | (some true, h) => (.sat, { n with internal := h, nSat := n.nSat + 1, state := .sat })
  | (some false, h) => (.unsat, { n with internal := h, nUnsat := n.nUnsat + 1, state := .unsat assumps })
  | (none, h) => (.interrupted, { n with internal := h, nTerminated := n.nTerminated + 1, state := .input })

/-- `solve_track_stats` (batsat/src/lib.rs l.103-131). -/
def solveTrackStats (n : Batsat H) (A : List Lit) : SolverResult × Batsat H :=
  let (bs, h) := convert n.internal A
  n.record (!bs.isEmpty) (BatLib.solve h bs)

/-- `solve` (batsat/src/lib.rs l.162-173). -/
def solve (n : Batsat H) : SolverResult × Batsat H :=
  match n.state with
  | .sat => (.sat, n)
  | .unsat false => (.unsat, n)
  | _ => n.solveTrackStats []

/-- `solve_assumps` (batsat/src/lib.rs l.223-225). -/
def solveAssumps (n : Batsat H) (A : List Lit) : SolverResult × Batsat H := n.solveTrackStats A

/-- `lit_val` (batsat/src/lib.rs l.175-193). -/
def litVal (n : Batsat H) (l : Lit) : Res BindErr TernaryVal :=
  if n.state ≠ .sat then .err (.state .sat n.state.toExternal)
  else
    match BatLib.value n.internal ⟨l.var, !l.isNeg⟩ with
    | some (some true) => .ok .true
    | some (some false) => .ok .false
    | some none => .ok .dontCare
    | none => .panic

/-- `add_clause_ref` (batsat/src/lib.rs l.195-211). -/
def addClause (n : Batsat H) (c : Clause) : Batsat H :=
  let (bs, h) := convert n.internal c
  { n with internal := BatLib.addClause h bs, state := .input }

/-- The loop of `reserve` (batsat/src/lib.rs l.214-216). The number of rounds is bounded by the first argument; `reserve` uses
a bound that is reached only if `new_var_default` does not create variables. -/
def reserveLoop : Nat → H → Nat → H
  | 0, h, _ => h
  | fuel + 1, h, v => if BatLib.numVars h ≤ v then reserveLoop fuel (BatLib.newVar h) v else h

/-- `reserve` (batsat/src/lib.rs l.213-218). -/
def reserve (n : Batsat H) (v : Nat) : Batsat H := { n with internal := reserveLoop (v + 1) n.internal v }

/-- `core` (batsat/src/lib.rs l.227-247). -/
def core (n : Batsat H) : Res BindErr (List Lit) :=
  match n.state with
  | .unsat true => .ok ((BatLib.core n.internal).map fun l => Lit.mk' l.var (!l.sign))
  | .unsat false => .ok []
  | s => .err (.state .unsat s.toExternal)

/-- `max_var` (batsat/src/lib.rs l.280-287). -/
def maxVar (n : Batsat H) : Option Nat :=
  if 0 < BatLib.numVars n.internal then some (BatLib.numVars n.internal - 1) else none

/-- `stats` (batsat/src/lib.rs l.251-261). -/
def stats (n : Batsat H) : SolverStats :=
  ⟨n.nSat, n.nUnsat, n.nTerminated, BatLib.numClauses n.internal, n.maxVar⟩

/-- `extend` (batsat/src/lib.rs l.134-157). -/
def extend (n : Batsat H) (cs : ClauseSet) : Batsat H := cs.foldl addClause n

end Batsat
end RustSat
