import Verif.Model.Tools
import Verif.Model.Gbmo
import Verif.Model.ProofText
/-
Model of the command line tool that turns multi-objective instances into integer linear programs (tools/src/bin/mo2ilp.rs),
and of the functions on multi-objective instances that it calls (src/instances/multiopt.rs).
-/
namespace RustSat
open Dimacs Opb

/-- `Objective::var_set` (src/instances/opt.rs l.864-891), as a list with repetitions. -/
def Objective.varList : Objective → List Nat
  | .weighted _ sl sc => sl.map (fun p => p.1.var) ++ sc.flatMap fun p => p.1.map Lit.var
  | .unweighted _ _ sl sc => sl.map Lit.var ++ sc.flatMap fun c => c.map Lit.var

namespace MultiOptInstance
variable {VM : Type} [ManageVars VM]

/-- `MultiOptInstance::var_set` (src/instances/multiopt.rs l.209-221): the variables in increasing order without repetition. -/
def varSet (i : MultiOptInstance VM) : List Nat :=
  ((i.constrs.varSet ++ i.objs.flatMap Objective.varList).eraseDups).mergeSort

/-- Re-indexing an objective, with the arguments in the order that loops need. -/
def reindexObj (m : ReindexVM) (o : Objective) : Objective × ReindexVM := o.reindex m

/-- `MultiOptInstance::reindex` with a `ReindexingVarManager` (src/instances/multiopt.rs l.199-207). -/
def reindex (i : MultiOptInstance VM) (m : ReindexVM) : MultiOptInstance ReindexVM :=
  let (objs, m) := SatInstance.reindexList reindexObj m i.objs
  ⟨i.constrs.reindex m, objs⟩

/-- The loop of `MultiOptInstance::reindex_ordered` (src/instances/multiopt.rs l.232-234). -/
def reindexVars (m : ReindexVM) (vs : List Nat) : ReindexVM := vs.foldl (fun m v => (m.reindex v).2) m

/-- `MultiOptInstance::reindex_ordered` (src/instances/multiopt.rs l.228-236). -/
def reindexOrdered (i : MultiOptInstance VM) (m : ReindexVM) : MultiOptInstance ReindexVM :=
  i.reindex (reindexVars m i.varSet)

end MultiOptInstance

namespace Mo2Ilp

/-- `OutputFormat` (tools/src/bin/mo2ilp.rs l.49-54). -/
inductive Format where
  | bauss | fgt
deriving DecidableEq, Repr

/-- `UnusedVars` (l.58-65). -/
inductive Unused where
  | nothing | remove | assignZero
deriving DecidableEq, Repr

/-- `Operator` (l.309-313). -/
inductive Operator where
  | gte | lte | eq
deriving DecidableEq, Repr

/-- `Display for Operator` (l.315-323). -/
def Operator.text : Operator → Text
  | .gte => ['0']
  | .lte => ['1']
  | .eq => ['2']

/-- The body of the loop that assigns unused variables (l.93-98); `constraints_mut().add_unit` adds a clause of one literal. -/
def zeroUnused (used : List Nat) (s : SatInstance BasicVM) (v : Nat) : SatInstance BasicVM :=
  if v ∈ used then s else s.addClause [Lit.negOf v]

/-- What is done with unused variables (l.77-101). -/
def prepare (u : Unused) (i : MultiOptInstance BasicVM) : MultiOptInstance BasicVM :=
  match u with
  | .nothing => i
  | .remove =>
    let (constr, objs) := (i.reindexOrdered ReindexVM.default).decompose
    let (nextFree, _) := ManageVars.newVar constr.vm
    MultiOptInstance.compose ⟨constr.cnf, constr.cards, constr.pbs, BasicVM.fromNextFree nextFree⟩ objs
  | .assignZero =>
    { i with constrs := (List.range (ManageVars.nUsed i.constrs.vm)).foldl (zeroUnused i.varSet) i.constrs }

/-- `coefs[idx] += c`; `none` is an index out of bounds. Overflow is not modelled. -/
def addCoef (coefs : List Int) (idx : Nat) (c : Int) : Option (List Int) :=
  if idx < coefs.length then some (coefs.modify idx (· + c)) else none

/-- `*coefs.last_mut().unwrap() += c`. -/
def addLast (coefs : List Int) (c : Int) : Option (List Int) := addCoef coefs (coefs.length - 1) c

/-- The loop of `write_objective` (l.257-266); `none` is a panic: of `isize::try_from(coef).expect(..)`, or an index out of
bounds. -/
def objLoop : List Int → List (Lit × Nat) → Option (List Int)
  | coefs, [] => some coefs
  | coefs, (l, w) :: ls =>
    if w > isizeMax then none
    else if l.isNeg then
      match addLast coefs w with
      | none => none
      | some coefs =>
        match addCoef coefs l.var (-w) with
        | none => none
        | some coefs => objLoop coefs ls
    else
      match addCoef coefs l.var w with
      | none => none
      | some coefs => objLoop coefs ls

/-- The coefficients in `write_objective` (l.251-267). -/
def objRow (o : Objective) (nVars : Nat) : Option (List Int) :=
  match o.iterSoftLits with
  | none => none
  | some ls =>
    match objLoop (List.replicate nVars 0) ls with
    | none => none
    | some coefs => addLast coefs o.offset

/-- The loop of `write_constraint` (l.295-303). -/
def constrLoop : List Int → Int → List (Lit × Nat) → Option (List Int × Int)
  | coefs, b, [] => some (coefs, b)
  | coefs, b, (l, w) :: ls =>
    if w > isizeMax then none
    else
      match addCoef coefs l.var (if l.isNeg then -w else w) with
      | none => none
      | some coefs => constrLoop coefs (if l.isNeg then b - w else b) ls

/-- The relation of a constraint (l.281-294). -/
def opOf : PbConstraint → Operator
  | .ub .. => .lte
  | .lb .. => .gte
  | .eq .. => .eq

/-- The coefficients in `write_constraint` and what it returns (l.275-306). -/
def constrRow (c : PbConstraint) (nVars : Nat) : Option (List Int × Operator × Int) :=
  match constrLoop (List.replicate nVars 0) c.bound c.lits with
  | none => none
  | some (coefs, b) => some (coefs, opOf c, b)

/-- `objs.iter_mut().flat_map(|o| o.convert_to_soft_lits(&mut vm))` (l.187-191): the clauses, the objectives afterwards, and
the variable manager. -/
def convertAll : BasicVM → List Objective → ClauseSet × List Objective × BasicVM
  | vm, [] => ([], [], vm)
  | vm, o :: os =>
    let (cls, o, vm) := o.convertToSoftLits vm
    let (rest, os, vm) := convertAll vm os
    (cls ++ rest, o :: os, vm)

/-- The integer linear program that is written: the number of variables, the objectives, the constraints, and the sizes that
one of the formats announces. -/
structure Program where
  nVars : Nat
  objs : List (List Int)
  constrs : List (List Int × Operator × Int)
  nonZeroConstrs : Nat
  nonZeroObjs : Nat
deriving DecidableEq, Repr

/-- The computations of `write_instance` (l.178-197) and of the functions it calls; `none` is a panic. -/
def program (i : MultiOptInstance BasicVM) : Option Program :=
  let (constr, objs) := i.decompose
  let (pbs, vm) := constr.intoPbs
  let (_, vm) := ManageVars.increaseNextFree vm (MultiOptInstance.objMaxVar objs + 1)
  let (cls, objs, vm) := convertAll vm objs
  let (aux, vm) := ManageVars.newLit vm
  let pbs := pbs ++ cls.map PbConstraint.ofClause ++ [PbConstraint.newLb [(aux, 1)] 1]
  match objs.mapM fun o => objRow o (ManageVars.nUsed vm) with
  | none => none
  | some objRows =>
    match pbs.mapM fun c => constrRow c (ManageVars.nUsed vm) with
    | none => none
    | some rows => some ⟨ManageVars.nUsed vm, objRows, rows, (pbs.map PbConstraint.len).sum, (objs.map Objective.nSofts).sum⟩

/-- `writeln!(writer, "{}", coefs.into_iter().format(" "))` (l.268, l.304). -/
def rowText (coefs : List Int) : Text := ProofText.joinSp (coefs.map Text.showInt)

/-- The lines of `write_instance` (l.199-248). -/
def Program.lines (fmt : Format) (p : Program) : List Text :=
  (match fmt with
   | .bauss => [ProofText.joinSp ([p.nVars, p.constrs.length, p.objs.length, p.nonZeroConstrs, p.nonZeroObjs].map Text.showNat), []]
   | .fgt => [ProofText.joinSp ([p.nVars, p.constrs.length, p.objs.length].map Text.showNat), [],
      ProofText.joinSp (List.replicate p.objs.length "minsum".toList), []]) ++
  p.objs.map rowText ++ [[]] ++ p.constrs.map (fun r => rowText r.1) ++ [[]] ++
  p.constrs.map (fun r => r.2.1.text ++ ' ' :: Text.showInt r.2.2) ++
  (match fmt with
   | .bauss => []
   | .fgt => [[], ProofText.joinSp (List.replicate p.nVars (Text.showNat 0)), ProofText.joinSp (List.replicate p.nVars (Text.showNat 1))])

/-- `write_instance` (l.173-248). What was written before a panic is not modelled. -/
def writeInstance (fmt : Format) (i : MultiOptInstance BasicVM) : ToolResult :=
  match program i with
  | none => .panic
  | some p => .output (unlines (p.lines fmt))

/-- `main` (l.67-115) after the instance was read. -/
def convert (fmt : Format) (u : Unused) (i : MultiOptInstance BasicVM) : ToolResult := writeInstance fmt (prepare u i)

/-- The input: a DIMACS MCNF file, or an OPB file together with the argument `first_var_idx` (l.69-72, l.124-171). -/
inductive Input where
  | mcnf (t : Text)
  | opb (firstVarIdx : Nat) (t : Text)

/-- `parse_instance` (l.124-171) for a known file format. -/
def Input.read : Input → Res FioError (MultiOptInstance BasicVM)
  | .mcnf t => MultiOptInstance.fromDimacs ⟨0⟩ t
  | .opb first t => MultiOptInstance.fromOpb ⟨0⟩ { Options.dflt with firstVarIdx := first } t

/-- `mo2ilp` (l.67-115). -/
def mo2ilp (fmt : Format) (u : Unused) (inp : Input) : ToolResult := withRead inp.read (convert fmt u)

end Mo2Ilp
end RustSat
