import Verif.Model.Solvers
import Verif.Model.MaxSat
import Verif.Model.Opb
/-
Model of the command line tools (tools/src/bin): the enumerator of solutions, the conversions between file formats, and
the solution checker. File names, compression and the choice of the file format by the extension are not modelled: a tool
is a function of the text of its input. All tools use `BasicVarManager`.
-/
namespace RustSat
open Dimacs Opb

/-! ### Enumerating solutions -/

section
variable {S : Type} [Solve S]

/-- `Solve::solution` (src/solvers/mod.rs l.165-174): `none` is an error of `lit_val`. -/
def solverSolution (s : S) (highVar : Nat) : Option Assignment :=
  ((List.range (highVar + 1)).mapM fun v => Solve.litVal s (Lit.pos v)).map Assignment.mk

/-- `Enumerator` (tools/src/bin/enumerator.rs l.148-151). -/
structure Enumerator (S : Type) where
  solver : S
  maxVar : Nat

/-- The result of `Enumerator::next`. -/
inductive EnumStep (S : Type) where
  | item (sol : Assignment) (e : Enumerator S)
  | finished (e : Enumerator S)
  | panic

/-- `Enumerator::next` (tools/src/bin/enumerator.rs l.156-179). -/
def Enumerator.next (e : Enumerator S) : EnumStep S :=
  match Solve.solve e.solver with
  | (some .sat, s) =>
    match solverSolution s e.maxVar with
    | none => .panic
    | some sol =>
      match sol.intoIter with
      | none => .panic
      | some ls =>
        match Solve.addClause s (ls.map Lit.neg) with
        | (some (), s) => .item sol { e with solver := s }
        | (none, _) => .panic
  | (some .unsat, s) => .finished { e with solver := s }
  | _ => .panic

/-- The loop that prints the solutions (tools/src/bin/enumerator.rs l.206-218), with the arguments `enumerate_until`,
the fuel, and the number of solutions printed so far. The result are the printed solutions. -/
def enumLoop (stop : Option Nat) : (fuel : Nat) → (cnt : Nat) → Enumerator S → SearchResult (List Assignment)
  | 0, _, _ => .running
  | fuel + 1, cnt, e =>
    match e.next with
    | .panic => .panic
    | .finished _ => .done []
    | .item sol e =>
      if stop.any (fun max => decide (cnt + 1 ≥ max)) then .done [sol]
      else
        match enumLoop stop fuel (cnt + 1) e with
        | .done sols => .done (sol :: sols)
        | r => r

/-- `main` of the enumerator (tools/src/bin/enumerator.rs l.182-220) after parsing, for the first solver of its kind: the
printed solutions with the values of the objectives, which are printed before each solution. `reserve` is not modelled. -/
def enumerator (S : Type) [Solve S] (stop : Option Nat) (fuel : Nat) (i : MultiOptInstance BasicVM) :
    SearchResult (List (Assignment × List Int)) :=
  let (constr, objs) := i.decompose
  match ManageVars.maxVar constr.vm with
  | none => .panic
  | some maxVar =>
    match constr.intoCnf with
    | none => .panic
    | some (cnf, _) =>
      match addCnf (Solve.init 0 : S) cnf with
      | (none, _) => .panic
      | (some (), s) =>
        match enumLoop stop fuel 0 ⟨s, maxVar⟩ with
        | .done sols => .done (sols.map fun sol => (sol, objs.map fun o => o.evaluate sol))
        | .panic => .panic
        | .running => .running

end

/-! ### Conversions -/

/-- What a tool does: it writes a text, exits with an error message, or panics. -/
inductive ToolResult where
  | output (t : Text)
  | error
  | panic
deriving DecidableEq, Repr

def ToolResult.ofRes {ε : Type} : Res ε Text → ToolResult
  | .ok t => .output t
  | .err _ => .error
  | .panic => .panic

/-- Runs the rest of the tool on the instance that was read. -/
def withRead {ε α : Type} (r : Res ε α) (f : α → ToolResult) : ToolResult :=
  match r with
  | .ok a => f a
  | .err _ => .error
  | .panic => .panic

/-- `cnf2opb` (tools/src/bin/cnf2opb.rs l.23-45); `opts` are made from the arguments `--first-var-idx` and
`--avoid-negated-lits`. -/
def cnf2opb (opts : Options) (t : Text) : ToolResult :=
  withRead (SatInstance.fromDimacs (VM := BasicVM) ⟨0⟩ t) fun inst =>
    match inst.writeOpb opts with
    | some t => .output t
    | none => .panic

/-- Turning the soft clauses of an objective to soft literals and adding the relaxed clauses to the constraints
(tools/src/bin/wcnf2opb.rs l.38-39, mcnf2opb.rs l.39-42). -/
def hardenSoftCls (constr : SatInstance BasicVM) (obj : Objective) : SatInstance BasicVM × Objective :=
  let (hardened, obj, vm) := obj.convertToSoftLits constr.vm
  (SatInstance.extend { constr with vm := vm } (SatInstance.ofCnf ⟨0⟩ hardened), obj)

/-- `wcnf2opb` (tools/src/bin/wcnf2opb.rs l.24-50). -/
def wcnf2opb (opts : Options) (t : Text) : ToolResult :=
  withRead (OptInstance.fromDimacs (VM := BasicVM) ⟨0⟩ t) fun inst =>
    let (constr, obj) := inst.decompose
    let (constr, obj) := hardenSoftCls constr obj
    .ofRes ((OptInstance.compose constr obj).writeOpb opts)

/-- The loop over the objectives (tools/src/bin/mcnf2opb.rs l.39-42). -/
def hardenAll : SatInstance BasicVM → List Objective → SatInstance BasicVM × List Objective
  | constr, [] => (constr, [])
  | constr, o :: os =>
    let (constr, o) := hardenSoftCls constr o
    let (constr, os) := hardenAll constr os
    (constr, o :: os)

/-- `mcnf2opb` (tools/src/bin/mcnf2opb.rs l.24-52). -/
def mcnf2opb (opts : Options) (t : Text) : ToolResult :=
  withRead (MultiOptInstance.fromDimacs (VM := BasicVM) ⟨0⟩ t) fun inst =>
    let (constr, objs) := inst.decompose
    let (constr, objs) := hardenAll constr objs
    .ofRes ((MultiOptInstance.compose constr objs).writeOpb opts)

/-- The options that the tools reading OPB files use: the argument `--first-var-idx` is not used
(tools/src/bin/opb2cnf.rs l.23-26, opb2wcnf.rs l.22-25, opb2mcnf.rs l.23-26). -/
def opbInOpts (_firstVarIdx : Nat) : Options := { Options.dflt with firstVarIdx := 0 }

/-- The numbers of constraints that are printed, with what is printed in front of them. -/
def countLines (pre : Text) (s : SatInstance BasicVM) : Text :=
  unlines [pre ++ Text.showNat s.cnf.length ++ " clauses".toList, pre ++ Text.showNat s.cards.length ++ " cards".toList,
    pre ++ Text.showNat s.pbs.length ++ " pbs".toList]

/-- `opb2cnf` (tools/src/bin/opb2cnf.rs l.21-49): the text in the output file, or all that is printed if there is no
output file. -/
def opb2cnf (firstVarIdx : Nat) (toStdout : Bool) (t : Text) : ToolResult :=
  withRead (SatInstance.fromOpb (VM := BasicVM) ⟨0⟩ (opbInOpts firstVarIdx) t) fun inst =>
    match inst.convertToCnf with
    | none => .panic
    | some inst' =>
      withRead inst'.writeDimacs fun out => .output (if toStdout then countLines [] inst ++ out else out)

/-- `opb2wcnf` (tools/src/bin/opb2wcnf.rs l.20-52). -/
def opb2wcnf (firstVarIdx : Nat) (toStdout : Bool) (t : Text) : ToolResult :=
  withRead (OptInstance.fromOpb (VM := BasicVM) ⟨0⟩ (opbInOpts firstVarIdx) t) fun inst =>
    let (constrs, obj) := inst.decompose
    match constrs.sanitize with
    | none => .panic
    | some constrs =>
      match constrs.convertToCnf with
      | none => .panic
      | some constrs' =>
        withRead (OptInstance.compose constrs' obj).writeDimacs fun out =>
          .output (if toStdout then countLines "c ".toList constrs ++ out else out)

/-- `opb2mcnf` (tools/src/bin/opb2mcnf.rs l.21-55). -/
def opb2mcnf (firstVarIdx : Nat) (toStdout : Bool) (t : Text) : ToolResult :=
  withRead (MultiOptInstance.fromOpb (VM := BasicVM) ⟨0⟩ (opbInOpts firstVarIdx) t) fun inst =>
    let (constrs, objs) := inst.decompose
    match constrs.sanitize with
    | none => .panic
    | some constrs =>
      let inst := MultiOptInstance.compose constrs objs
      match inst.constrs.convertToCnf with
      | none => .panic
      | some constrs' =>
        withRead ({ inst with constrs := constrs' } : MultiOptInstance BasicVM).writeDimacs fun out =>
          .output (if toStdout then countLines "c ".toList constrs ++
            unlines ["c ".toList ++ Text.showNat objs.length ++ " objectives".toList] ++ out else out)

/-! ### Checking solutions -/

/-- The result of the solution checker: the values of the objectives, or an unsatisfied constraint. -/
inductive CheckResult where
  | values (vs : List Int)
  | unsatisfied (c : ConstraintRef)
  | error
  | panic

/-- The loop that reads the solution (tools/src/bin/check-solution.rs l.61-71). -/
def readSolution : Assignment → List Text → Res InvalidVLine Assignment
  | sol, [] => .ok sol
  | sol, l :: ls =>
    if Text.startsWith ['v'] l then
      match sol.extendFromVline l with
      | .ok sol => readSolution sol ls
      | .err e => .err e
      | .panic => .panic
    else readSolution sol ls

/-- `check-solution` (tools/src/bin/check-solution.rs l.46-86) after parsing the instance. -/
def checkSolution (i : MultiOptInstance BasicVM) (t : Text) : CheckResult :=
  let (constrs, objs) := i.decompose
  match readSolution Assignment.empty (Text.readLines t) with
  | .err _ => .error
  | .panic => .panic
  | .ok sol =>
    match constrs.unsatConstraint sol with
    | some c => .unsatisfied c
    | none => .values (objs.map fun o => o.evaluate sol)

end RustSat
