import Verif.Model.Bound
import Verif.Model.EncodeConstr
import Verif.Model.Objective
/-
Model of the MaxSAT algorithm (src/algs/maxsat.rs), of `OptInstance::solve_maxsat`, and of the conversions of
(multi-)objective instances to hard clauses with soft clauses or soft literals (src/instances/opt.rs,
src/instances/multiopt.rs).

The SAT solver is an oracle: a function from the number of the call and the clauses added so far to an answer. As it is
arbitrary, it may return any model at any time. Sums of weights are not bounded by `usize::MAX`.
-/
namespace RustSat

/-- `SolverResult` (src/solvers/mod.rs) together with the values `lit_val` returns after `Sat`. An error of the solver
or an interruption, on which the algorithm panics, is `fail`. -/
inductive SolverAnswer where
  | sat (val : Nat → TernaryVal)
  | unsat
  | fail

/-- What became of a computation: it ended, panicked, or still runs when the fuel is used up. -/
inductive SearchResult (α : Type) where
  | done (r : α)
  | panic
  | running

/-- `Solve::solution` (src/solvers/mod.rs l.165-174): the values of the variables up to `high_var`. -/
def solution (highVar : Nat) (val : Nat → TernaryVal) : Assignment := ⟨(List.range (highVar + 1)).map val⟩

/-- `objective_value` (src/algs/maxsat.rs l.24-32). -/
def objectiveValue (obj : List (Lit × Nat)) (sol : Assignment) : Nat :=
  obj.foldl (fun sum x => if sol.litValue x.1 = .true then sum + x.2 else sum) 0

section
variable {E : Type} [Encoder E (Lit × Nat)] [BoundUpper E BasicVM] [EnforceUb E]

/-- The loop of `SolutionImprovingSearch::solve` (src/algs/maxsat.rs l.72-90). The argument `order` stands for the
iteration order of the hash maps in the encoder. -/
def searchLoop (oracle : Nat → ClauseSet → SolverAnswer) (order : Nat → E → E) (maxVar : Nat) (obj : List (Lit × Nat)) :
    (fuel : Nat) → (call : Nat) → E → BasicVM → ClauseSet → Option (Assignment × Nat) →
    SearchResult (Option (Assignment × Nat))
  | 0, _, _, _, _, _ => .running
  | fuel + 1, call, enc, vm, cls, sol =>
    match oracle call cls with
    | .fail => .panic
    | .unsat => .done sol
    | .sat val =>
      let assign := solution maxVar val
      let val := objectiveValue obj assign
      if val = 0 then .done (some (assign, val))
      else
        match BoundUpper.encodeUb (order call enc) ⟨.incl (val - 1), .excl val⟩ vm cls with
        | none => .panic
        | some (enc, vm, cls) =>
          match EnforceUb.enforceUb enc (val - 1) with
          | .ok units => searchLoop oracle order maxVar obj fuel (call + 1) enc vm (cls ++ units.map fun l => [l])
              (some (assign, val))
          | _ => .panic

/-- `SolutionImprovingSearch::solve` (src/algs/maxsat.rs l.63-92), for a solver with the clauses `cls` and the given
`max_var()`. -/
def solutionImproving (E : Type) [Encoder E (Lit × Nat)] [BoundUpper E BasicVM] [EnforceUb E]
    (oracle : Nat → ClauseSet → SolverAnswer) (order : Nat → E → E) (fuel : Nat)
    (maxVar : Option Nat) (cls : ClauseSet) (obj : List (Lit × Nat)) : SearchResult (Option (Assignment × Nat)) :=
  match maxVar with
  | none => .done (some (Assignment.empty, 0))
  | some maxVar => searchLoop oracle order maxVar obj fuel 0 (Encoder.new obj : E) (BasicVM.fromNextFree (maxVar + 1)) cls none

end

/-- `SolveStats::max_var` of a new solver to which the clauses were added: the highest variable in a clause. -/
def clsMaxVar (f : ClauseSet) : Option Nat := f.foldl (fun mv c => c.foldl (fun mv l => Objective.findMax mv l.var) mv) none

/-- The closure `handle_soft_cls` (src/instances/opt.rs l.1661-1671) over all soft clauses: the objective, the clauses in
the solver, the variable manager. `debug_assert!` is not modelled. -/
def handleSoftCls : BasicVM → ClauseSet → List (Clause × Nat) → List (Lit × Nat) × ClauseSet × BasicVM
  | vm, cls, [] => ([], cls, vm)
  | vm, cls, (cl, weight) :: rest =>
    match cl with
    | [l] => let r := handleSoftCls vm cls rest; ((l.neg, weight) :: r.1, r.2)
    | _ =>
      let (blit, vm) := ManageVars.newLit vm
      let r := handleSoftCls vm (cls ++ [cl ++ [blit.neg]]) rest
      ((blit, weight) :: r.1, r.2)

/-- `std::cmp::max` on `Option<Var>`. -/
def optMax : Option Nat → Option Nat → Option Nat
  | none, b => b
  | some a, none => some a
  | some a, some b => some (max a b)

namespace OptInstance
variable {VM : Type} [ManageVars VM]

/-- The variable manager of `solve_maxsat` (src/instances/opt.rs l.1654-1658). -/
def solverVm (vm : VM) (o : Objective) : BasicVM :=
  match optMax (ManageVars.maxVar vm) o.maxVar with
  | some mv => BasicVM.fromNextFree (mv + 1)
  | none => ⟨0⟩

/-- `OptInstance::solve_maxsat` (src/instances/opt.rs l.1643-1680) with the algorithm as an argument, which is given
`max_var()` and the clauses of the solver and the objective. -/
def solveMaxsat (alg : Option Nat → ClauseSet → List (Lit × Nat) → SearchResult (Option (Assignment × Nat)))
    (i : OptInstance VM) : SearchResult (Option (Assignment × Int)) :=
  match i.constrs.intoCnf with
  | none => .panic
  | some (cnf, vm) =>
    match i.obj.intoSoftCls with
    | none => .panic
    | some (softs, offset) =>
      let r := handleSoftCls (solverVm vm i.obj) cnf softs
      match alg (clsMaxVar r.2.1) r.2.1 r.1 with
      | .panic => .panic
      | .running => .running
      | .done none => .done none
      | .done (some (sol, cost)) => if offset + cost > isizeMax then .panic else .done (some (sol, offset + cost))

/-- `OptInstance::decompose` (src/instances/opt.rs l.1242-1247). -/
def decompose (i : OptInstance VM) : SatInstance VM × Objective := ({ i.constrs with vm := learnObj i.constrs.vm i.obj }, i.obj)

/-- `OptInstance::into_hard_cls_soft_cls` (src/instances/opt.rs l.1291-1297). -/
def intoHardClsSoftCls (i : OptInstance VM) : Option (ClauseSet × (List (Clause × Nat) × Int) × VM) :=
  match i.constrs.intoCnf with
  | none => none
  | some (cnf, vm) =>
    match i.obj.intoSoftCls with
    | none => none
    | some softs => some (cnf, softs, learnObj vm i.obj)

/-- `OptInstance::into_hard_cls_soft_lits` (src/instances/opt.rs l.1305-1313). -/
def intoHardClsSoftLits (i : OptInstance VM) : Option (ClauseSet × (List (Lit × Nat) × Int) × VM) :=
  match i.constrs.intoCnf with
  | none => none
  | some (cnf, vm) =>
    let (hards, softs, offset, vm) := i.obj.intoSoftLits (learnObj vm i.obj)
    some (cnf ++ hards, (softs, offset), vm)

end OptInstance

namespace MultiOptInstance
variable {VM : Type} [ManageVars VM]

/-- The highest variable of the objectives, 0 if there is none (src/instances/multiopt.rs l.59-64, l.141-146, l.163-168). -/
def objMaxVar (objs : List Objective) : Nat :=
  objs.foldl (fun v o => match o.maxVar with | some mv => max v mv | none => v) 0

/-- `MultiOptInstance::decompose` (src/instances/multiopt.rs l.58-67). -/
def decompose (i : MultiOptInstance VM) : SatInstance VM × List Objective :=
  ({ i.constrs with vm := (ManageVars.increaseNextFree i.constrs.vm (objMaxVar i.objs + 1)).2 }, i.objs)

/-- The objectives as soft clauses; `none` is a panic. -/
def allSoftCls : List Objective → Option (List (List (Clause × Nat) × Int))
  | [] => some []
  | o :: os =>
    match o.intoSoftCls, allSoftCls os with
    | some s, some ss => some (s :: ss)
    | _, _ => none

/-- `MultiOptInstance::into_hard_cls_soft_cls` (src/instances/multiopt.rs l.139-154). -/
def intoHardClsSoftCls (i : MultiOptInstance VM) : Option (ClauseSet × List (List (Clause × Nat) × Int) × VM) :=
  match i.constrs.intoCnf with
  | none => none
  | some (cnf, vm) =>
    match allSoftCls i.objs with
    | none => none
    | some softs => some (cnf, softs, (ManageVars.increaseNextFree vm (objMaxVar i.objs + 1)).2)

/-- The closure over the objectives in `into_hard_cls_soft_lits` (src/instances/multiopt.rs l.170-178). -/
def allSoftLits : VM → ClauseSet → List Objective → ClauseSet × List (List (Lit × Nat) × Int) × VM
  | vm, cnf, [] => (cnf, [], vm)
  | vm, cnf, o :: os =>
    let (hards, softs, offset, vm) := o.intoSoftLits vm
    let r := allSoftLits vm (cnf ++ hards) os
    (r.1, (softs, offset) :: r.2.1, r.2.2)

/-- `MultiOptInstance::into_hard_cls_soft_lits` (src/instances/multiopt.rs l.161-180). -/
def intoHardClsSoftLits (i : MultiOptInstance VM) : Option (ClauseSet × List (List (Lit × Nat) × Int) × VM) :=
  match i.constrs.intoCnf with
  | none => none
  | some (cnf, vm) => some (allSoftLits (ManageVars.increaseNextFree vm (objMaxVar i.objs)).2 cnf i.objs)

end MultiOptInstance
end RustSat
