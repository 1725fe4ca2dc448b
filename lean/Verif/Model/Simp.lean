import Verif.Model.Bindings
/-
Model of the solver with preprocessing of Glucose (glucose/src/simp.rs, the functions `cglucosesimp4_*` in
glucose/vendor/cglucose4.cc, and the variable elimination in glucose/vendor/simp/SimpSolver.cc).

The wrapper is `Mini` over `SimpState`. The search for a model, the choice of the variables that are eliminated, and the
detection of contradictions by propagation are parameters (`SimpCore`). Clauses of one literal stay in the list of clauses,
where the code has an assigned variable. Subsumption, removal of satisfied clauses, learnt clauses, limits and phases are not
modelled. MiniSat's C functions have the same form, but `Solver::solve_` is not virtual there (minisat/vendor/minisat/core/
Solver.h), so that no variable is ever eliminated.
-/
namespace RustSat

/-- The result of `Solver::solve_` (glucose/vendor/core/Solver.cc l.1784-1869): the values of variables, a conflict, or
neither. -/
inductive CoreResult where
  | sat (p : Nat → Option Bool)
  | unsat (conflict : List Lit)
  | unknown

/-- The parts of the solver that are parameters: `order` gives the variables that are tried for elimination, `refutes`
whether a contradiction is found before the search, `search` is `Solver::solve_` for the clauses and assumptions, where
the list says which variables are eliminated, `propCheck` is `Solver::propCheck`. -/
class SimpCore (S : Type) where
  init : S
  order : S → ClauseSet → List Nat
  refutes : S → ClauseSet → Bool
  search : S → ClauseSet → List Bool → List Lit → CoreResult × S
  propCheck : S → ClauseSet → List Lit → Bool → Option (Int × List Lit × S)

/-- `SimpSolver` (glucose/vendor/simp/SimpSolver.h l.66-204). `elimClauses` has the literal that comes first and the other
literals of each stored clause, the last one stored first. The vectors `frozen` and `eliminated` have an entry for each
variable; `modelSize` is the length of the vector `model`. -/
structure SimpState (S : Type) where
  core : S
  clauses : ClauseSet := []
  elimClauses : List (Lit × List Lit) := []
  frozen : List Bool := []
  eliminated : List Bool := []
  modelSize : Nat := 0
  model : Nat → Option Bool := fun _ => none
  conflict : List Lit := []

namespace Simp

/-- A literal and its negation occur in a clause. -/
def taut (c : Clause) : Bool := c.any fun l => c.contains l.neg

/-- The clause without repetitions, or nothing if it is a tautology (glucose/vendor/core/Solver.cc l.424-446). -/
def normalise (c : Clause) : Option Clause := if taut c then none else some c.eraseDups

/-- The literals of a clause over other variables. -/
def others (v : Nat) (c : Clause) : List Lit := c.filter fun l => l.var != v

/-- The clauses with the variable: `pos` and `neg` in `eliminateVar` (glucose/vendor/simp/SimpSolver.cc l.576-579). -/
def posOf (v : Nat) (G : ClauseSet) : ClauseSet := G.filter fun c => c.contains (Lit.pos v)

@[inherit_doc posOf]
def negOf (v : Nat) (G : ClauseSet) : ClauseSet := G.filter fun c => !c.contains (Lit.pos v) && c.contains (Lit.negOf v)

/-- The clauses without the variable. -/
def without (v : Nat) (G : ClauseSet) : ClauseSet := G.filter fun c => !c.contains (Lit.pos v) && !c.contains (Lit.negOf v)

/-- `merge` for all pairs of clauses, and `addClause_` (glucose/vendor/simp/SimpSolver.cc l.315-343, l.608-613). -/
def resolvents (v : Nat) (P N : ClauseSet) : ClauseSet :=
  P.flatMap fun c => N.filterMap fun d => normalise (others v c ++ others v d)

/-- What `eliminateVar` stores (glucose/vendor/simp/SimpSolver.cc l.598-606), the last one first. -/
def stored (v : Nat) (P N : ClauseSet) : List (Lit × List Lit) :=
  if N.length < P.length then (Lit.pos v, []) :: N.reverse.map fun c => (Lit.negOf v, others v c)
  else (Lit.negOf v, []) :: P.reverse.map fun c => (Lit.pos v, others v c)

/-- The value of a literal. -/
def litOf (p : Nat → Option Bool) (l : Lit) : Option Bool := (p l.var).map fun b => b != l.isNeg

/-- One step of `extendModel` (glucose/vendor/simp/SimpSolver.cc l.671-679). -/
def extendStep (p : Nat → Option Bool) (e : Lit × List Lit) : Nat → Option Bool :=
  if e.2.any fun l => litOf p l != some false then p
  else fun v => if v = e.1.var then some (!e.1.isNeg) else p v

/-- `extendModel` (glucose/vendor/simp/SimpSolver.cc l.664-680). -/
def extendModel (es : List (Lit × List Lit)) (p : Nat → Option Bool) : Nat → Option Bool := es.foldl extendStep p

end Simp

namespace SimpState
variable {S : Type} [SimpCore S]

/-- `SimpSolver::newVar` (glucose/vendor/simp/SimpSolver.cc l.157-169) until there are `k` variables
(glucose/vendor/cglucose4.cc l.72-75, l.81-82). -/
def grow (s : SimpState S) (k : Nat) : SimpState S :=
  { s with
    frozen := s.frozen ++ List.replicate (k - s.frozen.length) false
    eliminated := s.eliminated ++ List.replicate (k - s.eliminated.length) false }

/-- `cglucose4_ensure_vars` (glucose/vendor/cglucose4.cc l.65-76); without literals the first variable is created. -/
def ensureVars (s : SimpState S) (ls : List Lit) : SimpState S :=
  s.grow (ls.foldl (fun k l => max k l.var) 0 + 1)

/-- `setFrozen` (glucose/vendor/simp/SimpSolver.h l.223). -/
def setFrozen (s : SimpState S) (v : Nat) (b : Bool) : SimpState S := { s with frozen := s.frozen.set v b }

/-- `eliminateVar` (glucose/vendor/simp/SimpSolver.cc l.568-626), if the limits on the number and size of clauses are
met. -/
def eliminateVar (s : SimpState S) (v : Nat) : SimpState S :=
  let P := Simp.posOf v s.clauses
  let N := Simp.negOf v s.clauses
  { s with
    clauses := Simp.without v s.clauses ++ Simp.resolvents v P N
    elimClauses := Simp.stored v P N ++ s.elimClauses
    eliminated := s.eliminated.set v true }

/-- One step of the loop of `eliminate` (glucose/vendor/simp/SimpSolver.cc l.717-742). -/
def eliminateStep (s : SimpState S) (v : Nat) : SimpState S :=
  if s.eliminated[v]? = some false ∧ s.frozen[v]? = some false then s.eliminateVar v else s

/-- `eliminate` (glucose/vendor/simp/SimpSolver.cc l.683-781). -/
def eliminate (s : SimpState S) : SimpState S := (SimpCore.order s.core s.clauses).foldl eliminateStep s

/-- The assumptions that are frozen for the query (glucose/vendor/simp/SimpSolver.cc l.177-190): the new state and
`extra_frozen`. -/
def freezeStep (r : SimpState S × List Nat) (a : Lit) : SimpState S × List Nat :=
  if r.1.frozen[a.var]? = some true then r else (r.1.setFrozen a.var true, r.2 ++ [a.var])

/-- Unfreezing the variables again (glucose/vendor/simp/SimpSolver.cc l.202-205). -/
def unfreeze (s : SimpState S) (vs : List Nat) : SimpState S := vs.foldl (fun s v => s.setFrozen v false) s

/-- `SimpSolver::solve_` after freezing (glucose/vendor/simp/SimpSolver.cc l.191-200). If a contradiction is found before
the search, the last conflict and the last model stay. -/
def query (s : SimpState S) (A : List Lit) : Int × SimpState S :=
  if SimpCore.refutes s.core s.clauses then (20, s)
  else
    let r := SimpCore.search s.core s.clauses s.eliminated A
    match r.1 with
    | .sat p => (10, { s with core := r.2, modelSize := s.frozen.length, model := Simp.extendModel s.elimClauses p, conflict := [] })
    | .unsat c => (20, { s with core := r.2, modelSize := 0, conflict := c })
    | .unknown => (0, { s with core := r.2, modelSize := 0, conflict := [] })

/-- `cglucosesimp4_solve` (glucose/vendor/cglucose4.cc l.111-134) with `SimpSolver::solve_`
(glucose/vendor/simp/SimpSolver.cc l.171-209). -/
def solve (s : SimpState S) (A : List Lit) : Int × SimpState S :=
  let f := A.foldl freezeStep (s.ensureVars A, [])
  let r := f.1.eliminate.query A
  (r.1, r.2.unfreeze f.2)

/-- `cglucosesimp4_add_clause` (glucose/vendor/cglucose4.cc l.93-109). -/
def addClause (s : SimpState S) (c : Clause) : SimpState S :=
  { s.ensureVars c with clauses := s.clauses ++ (Simp.normalise c).toList }

instance : MiniLib (SimpState S) where
  init := { core := SimpCore.init }
  addClause := addClause
  solve := solve
  value s v := if v < s.modelSize then some (match s.model v with | some true => .true | some false => .false | none => .dontCare) else none
  conflict s := s.conflict
  reserve s v := s.grow (v + 1)
  propCheck s A b := (SimpCore.propCheck s.core s.clauses A b).map fun r => (r.1, r.2.1, { s with core := r.2.2 })

end SimpState

/-- The error `AssumpEliminated` (glucose/src/lib.rs), or one of the other errors. -/
inductive SimpErr where
  | eliminated (v : Nat)
  | other (e : BindErr)
deriving DecidableEq, Repr

/-- An error of another kind. -/
def SimpErr.lift {α : Type} : Res BindErr α → Res SimpErr α
  | .ok a => .ok a
  | .err e => .err (.other e)
  | .panic => .panic

namespace Mini
variable {S : Type} [SimpCore S]

/-- `var_eliminated` (glucose/src/simp.rs l.74-79); `none`: access out of bounds. -/
def varEliminated (n : Mini (SimpState S)) (v : Nat) : Option Bool := n.handle.eliminated[v]?

/-- `freeze_var` (glucose/src/simp.rs l.318-327). -/
def freezeVar (n : Mini (SimpState S)) (v : Nat) : Mini (SimpState S) :=
  { n.reserve v with handle := SimpState.setFrozen (n.reserve v).handle v true }

/-- `max_var` (glucose/src/simp.rs l.449-460). -/
def maxVarSimp (n : Mini (SimpState S)) : Option Nat :=
  if 0 < n.handle.frozen.length then some (n.handle.frozen.length - 1) else none

/-- `melt_var` (glucose/src/simp.rs l.329-342). -/
def meltVar (n : Mini (SimpState S)) (v : Nat) : Mini (SimpState S) :=
  match n.maxVarSimp with
  | none => n
  | some k => if k < v then n else { n with handle := n.handle.setFrozen v false }

/-- `is_frozen` (glucose/src/simp.rs l.344-356); `none`: access out of bounds. -/
def isFrozen (n : Mini (SimpState S)) (v : Nat) : Option Bool :=
  match n.maxVarSimp with
  | none => some false
  | some k => if k < v then some false else n.handle.frozen[v]?

/-- The check of the assumptions in `solve_assumps` (glucose/src/simp.rs l.206-210). -/
def checkAssumps (n : Mini (SimpState S)) : List Lit → Res SimpErr Unit
  | [] => .ok ()
  | a :: A =>
    match n.varEliminated a.var with
    | some true => .err (.eliminated a.var)
    | some false => n.checkAssumps A
    | none => .panic

/-- `solve_assumps` (glucose/src/simp.rs l.203-237); `panic` stands for undefined behaviour. -/
def solveAssumpsSimp (n : Mini (SimpState S)) (A : List Lit) : Res SimpErr SolverResult × Mini (SimpState S) :=
  match n.checkAssumps A with
  | .ok _ => (SimpErr.lift (n.solveAssumps A).1, (n.solveAssumps A).2)
  | .err e => (.err e, n)
  | .panic => (.panic, n)

end Mini
end RustSat
