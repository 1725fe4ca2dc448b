import Verif.Model.Tools
/-
Model of `gbmosplit` (tools/src/bin/gbmosplit.rs): detecting that an objective is a weighted sum of objectives in which the
less important ones can never outweigh the more important ones, and splitting it. Weights are natural numbers: overflows of sums
of weights are not modelled.
-/
namespace RustSat

namespace Objective

/-- `Objective::n_softs` (src/instances/opt.rs l.120-122). -/
def nSofts (o : Objective) : Nat := o.nLits + o.nClauses
/-- `Objective::max_lit_weight` (src/instances/opt.rs l.158-168). -/
def maxLitWeight : Objective → Nat
  | .weighted _ sl _ => sl.foldl (fun s p => if p.2 > s then p.2 else s) 0
  | .unweighted _ u _ _ => u.getD 0
/-- `Objective::max_clause_weight` (src/instances/opt.rs l.171-181). -/
def maxClauseWeight : Objective → Nat
  | .weighted _ _ sc => sc.foldl (fun s p => if p.2 > s then p.2 else s) 0
  | .unweighted _ u _ _ => u.getD 0
/-- `Objective::max_weight` (src/instances/opt.rs l.184-186). -/
def maxWeight (o : Objective) : Nat := max o.maxLitWeight o.maxClauseWeight
/-- `Objective::min_lit_weight` (src/instances/opt.rs l.190-199). -/
def minLitWeight : Objective → Nat
  | .weighted _ sl _ => sl.foldl (fun s p => if p.2 < s then p.2 else s) usizeMax
  | .unweighted _ u _ _ => u.getD 0
/-- `Objective::min_clause_weight` (src/instances/opt.rs l.203-211). -/
def minClauseWeight : Objective → Nat
  | .weighted _ _ sc => sc.foldl (fun s p => if p.2 < s then p.2 else s) usizeMax
  | .unweighted _ u _ _ => u.getD 0
/-- `Objective::min_weight` (src/instances/opt.rs l.214-216). -/
def minWeight (o : Objective) : Nat := min o.minLitWeight o.minClauseWeight

end Objective

namespace Gbmo

/-- `SplitAlg` (gbmosplit.rs l.279-293). -/
inductive SplitAlg where
  | bmo
  | gcd
  | gbmo
deriving DecidableEq, Repr

/-- `ObjStats` (gbmosplit.rs l.308-314). -/
structure ObjStats where
  nSofts : Nat
  weightSum : Nat
  minWeight : Nat
  maxWeight : Nat
  multiplier : Nat
deriving DecidableEq, Repr

/-- The statistics of an objective (gbmosplit.rs l.324-330, l.376-382, l.391-397). -/
def objStats (o : Objective) (multiplier : Nat) : ObjStats :=
  ⟨o.nSofts, o.weightSum, o.minWeight, o.maxWeight, multiplier⟩

/-- `gcd` (gbmosplit.rs l.422-429). -/
def gcd (a b : Nat) : Nat :=
  if h : b = 0 then a else gcd b (a % b)
termination_by b
decreasing_by exact Nat.mod_lt _ (Nat.pos_of_ne_zero h)

/-- `softs.iter().fold(softs[0].1, |w_gcd, (_, w)| gcd(w_gcd, *w))` (gbmosplit.rs l.372-374, l.387-389); `none` is the index
out of bounds. -/
def levelGcd (softs : List (Clause × Nat)) : Option Nat :=
  match softs with
  | [] => none
  | p :: _ => some (softs.foldl (fun g q => gcd g q.2) p.2)

/-- One of the objectives, with its statistics (gbmosplit.rs l.371-383, l.386-398); `none` is a panic, also of a division by
zero. -/
def splitObj (softs : List (Clause × Nat)) : Option (Objective × ObjStats) :=
  match levelGcd softs with
  | none => none
  | some g =>
    if g = 0 then none
    else
      let o := Objective.ofClauses (softs.map fun p => (p.1, p.2 / g))
      some (o, objStats o g)

/-- `perform_split` (gbmosplit.rs l.362-400) from `split_start`; `none` is a panic. -/
def performSplit (sorted : List (Clause × Nat)) : (start : Nat) → (ends : List Nat) → Option (List (Objective × ObjStats))
  | start, [] =>
    match splitObj (sorted.drop start) with
    | none => none
    | some p => some [p]
  | start, e :: ends =>
    if e + 1 < start ∨ sorted.length < e + 1 then none
    else
      match splitObj ((sorted.take (e + 1)).drop start) with
      | none => none
      | some p =>
        match performSplit sorted (e + 1) ends with
        | none => none
        | some ps => some (p :: ps)

/-- The loop of `split_bmo` (gbmosplit.rs l.406-418) with the last multiplier and the sum of the weights so far. The first
weight is not larger than the first multiplier, so that `idx - 1` does not overflow. -/
def bmoLoop : List (Clause × Nat) → (idx last sum : Nat) → (ends : List Nat) → List Nat
  | [], _, _, _, ends => ends
  | p :: ps, idx, last, sum, ends =>
    if p.2 > last then
      if p.2 ≤ sum then []
      else bmoLoop ps (idx + 1) p.2 (sum + p.2) (ends ++ [idx - 1])
    else bmoLoop ps (idx + 1) last (sum + p.2) ends

/-- `split_bmo` (gbmosplit.rs l.402-420). -/
def splitBmo (sorted : List (Clause × Nat)) : Option (List (Objective × ObjStats)) :=
  match sorted with
  | [] => none
  | p :: _ => performSplit sorted 0 (bmoLoop sorted 0 p.2 0 [])

/-- The sums and the potential splits (gbmosplit.rs l.436-444). -/
def sumsPotSplits : List (Clause × Nat) → (idx sum : Nat) → List Nat × List Nat
  | [], _, _ => ([], [])
  | p :: ps, idx, sum =>
    let r := sumsPotSplits ps (idx + 1) (sum + p.2)
    match ps with
    | [] => ((sum + p.2) :: r.1, r.2)
    | q :: _ => ((sum + p.2) :: r.1, if q.2 > sum + p.2 then idx :: r.2 else r.2)

/-- The greatest common divisors (gbmosplit.rs l.445-450), in the order in which they are returned; for no clauses the code
panics. -/
def gcdsBack : List (Clause × Nat) → List Nat
  | [] => []
  | p :: ps =>
    match gcdsBack ps with
    | [] => [p.2]
    | g :: gs => gcd g p.2 :: g :: gs

/-- The first loop of `check_split_thorough_gbmo` (gbmosplit.rs l.459-464): whether it returns. The weights are sorted, so
that the difference does not overflow. -/
def fastFail (leftSum : Nat) : List (Clause × Nat) → Bool
  | [] => false
  | [_] => false
  | p :: q :: rest => (decide (q.2 - p.2 ≠ 0 ∧ q.2 - p.2 < leftSum)) || fastFail leftSum (q :: rest)

/-- `BTreeSet::insert` of a value that is not in the set; the set is a sorted list. -/
def bInsert (x : Nat) : List Nat → List Nat
  | [] => [x]
  | y :: ys => if x < y then x :: y :: ys else y :: bInsert x ys

/-- The outcomes of a part of `check_split_thorough_gbmo`: a panic, `return false`, or going on with the set. -/
inductive Check where
  | panic
  | fail
  | go (combs : List Nat)
deriving DecidableEq, Repr

/-- The end of the steps that add a combination (gbmosplit.rs l.489-495, l.513-519). -/
def checkSize (maxCombs : Nat) (combs : List Nat) : Check := if combs.length > maxCombs then .fail else .go combs

/-- Comparing to the next higher combination (gbmosplit.rs l.483-488, l.507-512), with the end of the range: `BTreeSet::range`
panics if the start is after the end. -/
def checkHigher (leftSum maxCombs hi : Nat) (combs : List Nat) (c : Nat) : Check :=
  if hi < c + 1 then .panic
  else
    match (combs.filter fun x => decide (c + 1 ≤ x ∧ x < hi)).head? with
    | some x => if x - c ≤ leftSum then .fail else checkSize maxCombs combs
    | none => checkSize maxCombs combs

/-- Adding the combination `c`, the sum of a known combination and a weight (gbmosplit.rs l.473-495). -/
def addComb (leftSum maxCombs rightSum : Nat) (combs : List Nat) (c : Nat) : Check :=
  if c ∈ combs then .go combs
  else
    let combs := bInsert c combs
    match (combs.filter fun x => decide (x < c)).getLast? with
    | none => .panic
    | some x => if c - x ≤ leftSum then .fail else checkHigher leftSum maxCombs (rightSum + 1) combs c

/-- Adding the weight `c` itself (gbmosplit.rs l.497-519). -/
def addWeight (leftSum maxCombs rightSum : Nat) (combs : List Nat) (c : Nat) : Check :=
  if c ∈ combs then .go combs
  else
    let combs := bInsert c combs
    match (combs.filter fun x => decide (x < c)).getLast? with
    | none => checkHigher leftSum maxCombs rightSum combs c
    | some x => if c - x ≤ leftSum then .fail else checkHigher leftSum maxCombs rightSum combs c

/-- The inner loop (gbmosplit.rs l.472-496) over the combinations known before. -/
def combLoop (leftSum maxCombs rightSum w : Nat) : (known combs : List Nat) → Check
  | [], combs => .go combs
  | k :: known, combs =>
    match addComb leftSum maxCombs rightSum combs (k + w) with
    | .go combs => combLoop leftSum maxCombs rightSum w known combs
    | r => r

/-- The outer loop (gbmosplit.rs l.468-520). -/
def thoroughLoop (leftSum maxCombs rightSum : Nat) : List (Clause × Nat) → (combs : List Nat) → Check
  | [], combs => .go combs
  | p :: ps, combs =>
    match combLoop leftSum maxCombs rightSum p.2 combs combs with
    | .go combs =>
      match addWeight leftSum maxCombs rightSum combs p.2 with
      | .go combs => thoroughLoop leftSum maxCombs rightSum ps combs
      | r => r
    | r => r

/-- `check_split_thorough_gbmo` (gbmosplit.rs l.453-522); `none` is a panic. The warnings are not modelled. -/
def checkThorough (right : List (Clause × Nat)) (leftSum maxCombs : Nat) : Option Bool :=
  match right with
  | [] => none
  | _ :: _ =>
    if fastFail leftSum right then some false
    else
      match thoroughLoop leftSum maxCombs (right.foldl (fun s p => s + p.2) 0) right [] with
      | .panic => none
      | .fail => some false
      | .go _ => some true

/-- The loop of `split_gbmo` (gbmosplit.rs l.527-539). -/
def gbmoLoop (alg : SplitAlg) (maxCombs : Nat) (sorted : List (Clause × Nat)) (sums gcds : List Nat) :
    List Nat → Option (List Nat)
  | [] => some []
  | e :: pot =>
    match sums[e]?, gcds[e + 1]? with
    | some s, some g =>
      let take : Option Bool :=
        if s < g then some true
        else if alg = .gbmo then checkThorough (sorted.drop (e + 1)) s maxCombs
        else some false
      match take with
      | none => none
      | some b =>
        match gbmoLoop alg maxCombs sorted sums gcds pot with
        | none => none
        | some es => some (if b then e :: es else es)
    | _, _ => none

/-- `split_gbmo` (gbmosplit.rs l.524-541). -/
def splitGbmo (alg : SplitAlg) (maxCombs : Nat) (sorted : List (Clause × Nat)) : Option (List (Objective × ObjStats)) :=
  match sorted with
  | [] => none
  | _ :: _ =>
    let r := sumsPotSplits sorted 0 0
    match gbmoLoop alg maxCombs sorted r.1 (gcdsBack sorted) r.2 with
    | none => none
    | some ends => performSplit sorted 0 ends

/-- `objs.last_mut().unwrap().set_offset(offset)` (gbmosplit.rs l.357). The statistics are not changed. -/
def setLastOffset (offset : Int) : List (Objective × ObjStats) → List (Objective × ObjStats)
  | [] => []
  | [p] => [(p.1.setOffset offset, p.2)]
  | p :: q :: ps => p :: setLastOffset offset (q :: ps)

/-- `split` (gbmosplit.rs l.316-360) on the objective: the objectives with their statistics. -/
def splitObjective (alg : SplitAlg) (maxCombs : Nat) (o : Objective) : Option (List (Objective × ObjStats)) :=
  match o with
  | .unweighted .. => some [(o, objStats o 1)]
  | .weighted .. =>
    match o.intoSoftCls with
    | none => none
    | some (softs, offset) =>
      let sorted := isort (fun p q => decide (p.2 ≤ q.2)) softs
      let r := match alg with
        | .bmo => splitBmo sorted
        | .gcd => splitGbmo alg maxCombs sorted
        | .gbmo => splitGbmo alg maxCombs sorted
      match r with
      | none => none
      | some objs => some (setLastOffset offset objs)

/-- `split` (gbmosplit.rs l.316-360). -/
def split (alg : SplitAlg) (maxCombs : Nat) (i : OptInstance BasicVM) : Option (MultiOptInstance BasicVM × List ObjStats) :=
  let (constr, obj) := i.decompose
  match splitObjective alg maxCombs obj with
  | none => none
  | some objs => some (MultiOptInstance.compose constr (objs.map Prod.fst), objs.map Prod.snd)

/-- The warnings of `split` (gbmosplit.rs l.323, l.341-345). -/
def splitWarnings (o : Objective) : List Text :=
  match o with
  | .unweighted .. => ["objective is unweighted, can't split".toList]
  | .weighted off _ _ =>
    if off ≠ 0 then ["objective offset is not zero (".toList ++ Text.showInt off ++
      "), will be added to the lowest ranking objective".toList]
    else []

/-- `InputFormat` (gbmosplit.rs l.216-229), after inferring it from the file extension. -/
inductive InFormat where
  | wcnf
  | opb
deriving DecidableEq, Repr

/-- `WriteFormat` (gbmosplit.rs l.272-276). -/
inductive WriteFormat where
  | mcnf
  | opb
deriving DecidableEq, Repr

/-- The arguments of the tool (gbmosplit.rs l.187-214). The path of the input is only used for messages; `toFile`: there is a
path for the output. -/
structure Args where
  alg : SplitAlg := .gbmo
  maxCombs : Nat := 100000
  input : InFormat := .wcnf
  output : Option WriteFormat := none
  alwaysDump : Bool := false
  opts : Opb.Options := { Opb.Options.dflt with firstVarIdx := 1 }
  inPath : Option Text := none
  toFile : Bool := true

/-- `parse_instance` (gbmosplit.rs l.549-597). -/
def parseInstance (f : InFormat) (opts : Opb.Options) (t : Text) : Res FioError (OptInstance BasicVM) :=
  match f with
  | .wcnf => OptInstance.fromDimacs ⟨0⟩ t
  | .opb => OptInstance.fromOpb ⟨0⟩ opts t

/-- `OutputFormat::infer` (gbmosplit.rs l.262-270) with the format that belongs to the input. -/
def writeFormat (args : Args) : WriteFormat :=
  match args.output with
  | some f => f
  | none => match args.input with
    | .wcnf => .mcnf
    | .opb => .opb

/-- `for obj in &mut objs { obj.convert_to_soft_lits(constrs.var_manager_mut()); }` (gbmosplit.rs l.659-661): the clauses that
are returned are dropped. -/
def relaxObjs : BasicVM → List Objective → List Objective × BasicVM
  | vm, [] => ([], vm)
  | vm, o :: os =>
    let (_, o, vm) := o.convertToSoftLits vm
    let (os, vm) := relaxObjs vm os
    (o :: os, vm)

/-- Writing the instance (gbmosplit.rs l.644-673). -/
def writeInstance (f : WriteFormat) (opts : Opb.Options) (i : MultiOptInstance BasicVM) : ToolResult :=
  match f with
  | .mcnf =>
    match i.constrs.convertToCnf with
    | none => .panic
    | some c => .ofRes ({ i with constrs := c } : MultiOptInstance BasicVM).writeDimacs
  | .opb =>
    let (constrs, objs) := i.decompose
    let (objs, vm) := relaxObjs constrs.vm objs
    .ofRes ((MultiOptInstance.compose { constrs with vm := vm } objs).writeOpb opts)

/-- What a run of the tool does: it panics, ends with an error, or with an exit code, after writing the text to the file or, if
there is no output path, to the standard output. -/
inductive Run where
  | panic
  | error
  | exit (code : Nat) (written : Option Text)
deriving DecidableEq, Repr

/-- The messages on the standard output before the instance is written, if there is no path for the output: warnings also are
printed there (gbmosplit.rs l.79-91, l.107-119, l.624-626). The texts are not coloured. -/
def messages (args : Args) (o : Objective) : Text :=
  Dimacs.unlines ((match args.inPath with | some p => ["info: finding splits in ".toList ++ p] | none => []) ++
    (splitWarnings o).map fun w => "warning: ".toList ++ w)

/-- `main` (gbmosplit.rs l.621-680). -/
def gbmosplit (args : Args) (t : Text) : Run :=
  match parseInstance args.input args.opts t with
  | .err _ => .error
  | .panic => .panic
  | .ok inst =>
    match split args.alg args.maxCombs inst with
    | none => .panic
    | some (mo, _) =>
      let found := decide (mo.objs.length > 1)
      let code := if found then 0 else 1
      if found || args.alwaysDump then
        match writeInstance (writeFormat args) args.opts mo with
        | .panic => .panic
        | .error => .error
        | .output u => .exit code (some (if args.toFile then u else messages args inst.obj ++ u))
      else .exit code none

end Gbmo
end RustSat
