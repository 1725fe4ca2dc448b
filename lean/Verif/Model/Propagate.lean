import Verif.Model.Bindings
/-
Propagation of assumptions: the function `propCheck` that RustSAT adds to MiniSat and Glucose, and `prop_check` that it adds
to versions of CaDiCaL before 2.1. Unit propagation itself is part of the solvers; it is a parameter `up` here that extends
the trail, and returns the first literal of a clause if this clause is false.
-/
namespace RustSat
namespace PropCheck

/-- What the function uses of the solver at level 0: `ok`, the number of variables and the trail
(minisat/vendor/minisat/core/Solver.h). -/
structure Core where
  ok : Bool
  nVars : Nat
  trail : List Lit
deriving DecidableEq, Repr

/-- The local variables of the function: the trail, where its part above level 0 begins (`trail_lim[level]`, if there is such
a level), `unsat`, and the first literal of the conflicting clause. -/
structure Local where
  trail : List Lit
  lim : Option Nat
  unsat : Bool
  confl : Option Lit
deriving DecidableEq, Repr

/-- The loop over the assumptions (minisat/vendor/minisat/core/Solver.cc l.525-535, glucose/vendor/core/Solver.cc
l.1012-1022, cadical/cpp-extension/solver_extension.cpp l.73-106). `none`: the value of an unknown variable is read. The
empty levels for assumptions that hold already are not modelled: they do not change what is reported. -/
def loop (nVars : Nat) (up : List Lit → List Lit × Option Lit) : List Lit → Local → Option Local
  | [], t => some t
  | p :: A, t =>
    if t.unsat || t.confl.isSome then some t
    else if nVars ≤ p.var then none
    else if p.neg ∈ t.trail then loop nVars up A { t with unsat := true }
    else if p ∈ t.trail then loop nVars up A t
    else
      loop nVars up A
        { trail := (up (t.trail ++ [p])).1, lim := t.lim.or (some t.trail.length), unsat := false,
          confl := (up (t.trail ++ [p])).2 }

/-- The literals passed to the callback (minisat/vendor/minisat/core/Solver.cc l.538-544). -/
def report (t : Local) : List Lit :=
  match t.lim with
  | none => []
  | some k => t.trail.drop k ++ t.confl.toList

/-- The trail after backtracking (minisat/vendor/minisat/core/Solver.cc l.547). -/
def backtrack (t : Local) : List Lit :=
  match t.lim with
  | none => t.trail
  | some k => t.trail.take k

/-- `Solver::propCheck` (minisat/vendor/minisat/core/Solver.cc l.512-554, glucose/vendor/core/Solver.cc l.999-1041): the
returned value, the literals passed to the callback, and the trail afterwards. Phase saving is not modelled. -/
def propCheck (s : Core) (up : List Lit → List Lit × Option Lit) (A : List Lit) : Option (Bool × List Lit × List Lit) :=
  if s.ok then
    (loop s.nVars up A ⟨s.trail, none, false, none⟩).map fun t => (!t.unsat && t.confl.isNone, report t, backtrack t)
  else some (false, [], s.trail)

/-- `Internal::already_solved` of CaDiCaL (cadical/vendor/src/internal.cpp l.1012-1029) for a trail that is propagated. -/
def alreadySolved (s : Core) : Int := if s.ok then if s.nVars = 0 then 10 else 0 else 20

/-- `Solver::prop_check` (cadical/cpp-extension/solver_extension.cpp l.33-135) without `restore_clauses`, options and
statistics, and for a solver in which internal and external variables are the same. -/
def cadicalPropCheck (s : Core) (up : List Lit → List Lit × Option Lit) (A : List Lit) :
    Option (Bool × List Lit × List Lit) :=
  if alreadySolved s = 0 then propCheck s up A else some (false, [], s.trail)

end PropCheck
end RustSat
