import Verif.Model.Tools
/-
Model of the tool `shuffledimacs` (tools/src/bin/shuffledimacs.rs): re-indexing instances with a
`RandReindVarManager`, shuffling the order of constraints, and writing them again.

Random choices are inputs of the model: `perm n` is the shuffled range of `n` variables, and the `i`-th call of
`shuffle` on a vector of any type is `sh i`.
-/
namespace RustSat
open Dimacs

/-- `impl ManageVars for RandReindVarManager` (src/instances/mod.rs l.386-423). -/
instance : ManageVars RandReindVM where
  newVar m := (m.nextVar, { m with nextVar := m.nextVar + 1 })
  maxVar m := if m.nextVar = 0 then none else some (m.nextVar - 1)
  increaseNextFree m v := if v > m.nextVar then (true, { m with nextVar := v }) else (false, m)
  combine m o := { m with nextVar := if o.nextVar > m.nextVar then o.nextVar else m.nextVar,
                          inMap := m.inMap ++ o.inMap }
  nUsed m := m.nextVar
  forgetFrom m v := { m with nextVar := min m.nextVar v }

/-- `ReindexVars::reindex_lit` (src/instances/mod.rs l.66-73) for `RandReindVarManager`, which does not change. -/
def RandReindVM.reindexLit (m : RandReindVM) (l : Lit) : Lit := Lit.mk' (m.reindex l.var) l.isNeg

/-! ### Re-indexing -/

/-- `iter_mut` over a cardinality constraint, replacing each literal (src/instances/sat.rs l.721-723). -/
def CardConstraint.mapLits (f : Lit → Lit) : CardConstraint → CardConstraint
  | .ub l b => .ub (l.map f) b
  | .lb l b => .lb (l.map f) b
  | .eq l b => .eq (l.map f) b

/-- `iter_mut` over a pseudo-Boolean constraint, replacing each literal (src/instances/sat.rs l.724-727). -/
def PbConstraint.mapLits (f : Lit → Lit) : PbConstraint → PbConstraint
  | .ub l w b => .ub (l.map fun p => (f p.1, p.2)) w b
  | .lb l w b => .lb (l.map fun p => (f p.1, p.2)) w b
  | .eq l w b => .eq (l.map fun p => (f p.1, p.2)) w b

section
variable {VM : Type}

/-- `SatInstance::reindex` (src/instances/sat.rs l.715-734) with a `RandReindVarManager`. -/
def SatInstance.randReindex (s : SatInstance VM) (m : RandReindVM) : SatInstance RandReindVM :=
  { cnf := s.cnf.map (List.map m.reindexLit), cards := s.cards.map (CardConstraint.mapLits m.reindexLit),
    pbs := s.pbs.map (PbConstraint.mapLits m.reindexLit), vm := m }

/-- `Objective::reindex` (src/instances/opt.rs l.810-860) with a `RandReindVarManager`. -/
def Objective.randReindex (o : Objective) (m : RandReindVM) : Objective :=
  match o with
  | .weighted off sl sc =>
    .weighted off (Objective.collectMap (sl.map fun p => (m.reindexLit p.1, p.2)))
      (Objective.collectMap (sc.map fun p => (p.1.map m.reindexLit, p.2)))
  | .unweighted off u sl sc => .unweighted off u (sl.map m.reindexLit) (sc.map (List.map m.reindexLit))

/-- `OptInstance::reindex` (src/instances/opt.rs l.1331-1337). -/
def OptInstance.randReindex (i : OptInstance VM) (m : RandReindVM) : OptInstance RandReindVM :=
  ⟨i.constrs.randReindex m, i.obj.randReindex m⟩

/-- `MultiOptInstance::reindex` (src/instances/multiopt.rs l.198-207). -/
def MultiOptInstance.randReindex (i : MultiOptInstance VM) (m : RandReindVM) : MultiOptInstance RandReindVM :=
  ⟨i.constrs.randReindex m, i.objs.map fun o => o.randReindex m⟩

/-! ### Shuffling -/

/-- The calls of `shuffle` on slices: the `i`-th call of a run. -/
abbrev Shuffler := (i : Nat) → {α : Type} → List α → List α

/-- `SatInstance::shuffle` (src/instances/sat.rs l.772-782) with `Cnf::shuffle` (l.193-201). -/
def SatInstance.shuffle (sh : Shuffler) (s : SatInstance VM) : SatInstance VM :=
  { s with cnf := sh 0 s.cnf, cards := sh 1 s.cards, pbs := sh 2 s.pbs }

/-- `Objective::shuffle` (src/instances/opt.rs l.1043-1060), which makes the calls `k` and `k + 1`. -/
def Objective.shuffle (sh : Shuffler) (k : Nat) : Objective → Objective
  | .weighted off sl sc => .weighted off sl sc
  | .unweighted off u sl sc => .unweighted off u (sh k sl) (sh (k + 1) sc)

/-- `OptInstance::shuffle` (src/instances/opt.rs l.1366-1373). -/
def OptInstance.shuffle (sh : Shuffler) (i : OptInstance VM) : OptInstance VM :=
  ⟨i.constrs.shuffle sh, i.obj.shuffle sh 3⟩

/-- `self.objs.into_iter().map(Objective::shuffle)`, the first objective making the calls from `k` on. -/
def shuffleObjs (sh : Shuffler) : Nat → List Objective → List Objective
  | _, [] => []
  | k, o :: os => o.shuffle sh k :: shuffleObjs sh (k + 2) os

/-- `MultiOptInstance::shuffle` (src/instances/multiopt.rs l.238-245). -/
def MultiOptInstance.shuffle (sh : Shuffler) (i : MultiOptInstance VM) : MultiOptInstance VM :=
  ⟨i.constrs.shuffle sh, shuffleObjs sh 3 i.objs⟩

end

/-! ### The tool -/

/-- `Path::extension` of a file name with the `Path::with_extension("")` of it, from the standard library. -/
def splitExtension (name : Text) : Option (Text × Text) :=
  let ext := (name.reverse.takeWhile (· != '.')).reverse
  match name.reverse.dropWhile (· != '.') with
  | [] => none
  | _ :: stem => if name = ['.', '.'] ∨ stem = [] then none else some (stem.reverse, ext)

/-- `FileType` (tools/src/bin/shuffledimacs.rs l.20-24). -/
inductive ShuffleFileType where
  | cnf
  | wcnf
  | mcnf
deriving DecidableEq, Repr

/-- The comparisons at the end of `determine_file_type` (l.86-92). -/
def ShuffleFileType.ofExtension (ext : Text) : ShuffleFileType :=
  if ext = "wcnf".toList then .wcnf else if ext = "mcnf".toList then .mcnf else .cnf

/-- `determine_file_type` (l.72-94) on the name of a file. -/
def determineFileType (name : Text) : ShuffleFileType :=
  match splitExtension name with
  | none => .cnf
  | some (stem, ext) =>
    if ext = "gz".toList ∨ ext = "bz2".toList then
      match splitExtension stem with
      | none => .cnf
      | some (_, ext) => .ofExtension ext
    else .ofExtension ext

/-- `main` of `shuffledimacs` for CNF files (l.32-41). -/
def shuffleCnf (perm : Nat → List Nat) (sh : Shuffler) (t : Text) : ToolResult :=
  withRead (SatInstance.fromDimacs (VM := BasicVM) ⟨0⟩ t) fun inst =>
    .ofRes (((inst.randReindex (RandReindVM.init (perm (ManageVars.nUsed inst.vm)))).shuffle sh).writeDimacs)

/-- `main` of `shuffledimacs` for WCNF files (l.42-51). -/
def shuffleWcnf (perm : Nat → List Nat) (sh : Shuffler) (t : Text) : ToolResult :=
  withRead (OptInstance.fromDimacs (VM := BasicVM) ⟨0⟩ t) fun inst =>
    .ofRes (((inst.randReindex (RandReindVM.init (perm (ManageVars.nUsed inst.constrs.vm)))).shuffle sh).writeDimacs)

/-- `main` of `shuffledimacs` for MCNF files (l.52-61). -/
def shuffleMcnf (perm : Nat → List Nat) (sh : Shuffler) (t : Text) : ToolResult :=
  withRead (MultiOptInstance.fromDimacs (VM := BasicVM) ⟨0⟩ t) fun inst =>
    .ofRes (((inst.randReindex (RandReindVM.init (perm (ManageVars.nUsed inst.constrs.vm)))).shuffle sh).writeDimacs)

/-- `main` of `shuffledimacs` (l.26-64): `name` and `t` are the name and the text of the input file. -/
def shuffledimacs (perm : Nat → List Nat) (sh : Shuffler) (name t : Text) : ToolResult :=
  match determineFileType name with
  | .cnf => shuffleCnf perm sh t
  | .wcnf => shuffleWcnf perm sh t
  | .mcnf => shuffleMcnf perm sh t

end RustSat
