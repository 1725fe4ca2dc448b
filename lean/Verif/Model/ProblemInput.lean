import Verif.Model.ProblemEnc
import Verif.Model.Text
/-
Model of the parsers for the inputs of the tool `encodings`: knapsacks (tools/src/encodings/knapsack.rs, module `parsing`), assignment
problems (tools/src/encodings/assignment.rs) and facility location (tools/src/encodings/facilitylocation.rs), with the shared parsers in
tools/src/parsing.rs. A file is a text; reading never fails. A parser returns `none` for an error. Running out of memory for large
numbers of items is not modelled.
-/
namespace RustSat
open P

namespace Problems

/-! ### Shared parsers -/

/-- `comment_or_end("#")` (parsing.rs l.31-41). -/
def commentOrEnd : P Unit :=
  seqP space0 fun _ => seqP (opt (seqP (char '#') fun _ => tillLineEnding)) fun _ => lineEnding

/-- `single_value(dec_uint, "#")` (parsing.rs l.14-29) for a type with this maximum. -/
def singleValue (max : Nat) : P Nat :=
  seqP space0 fun _ => seqP (decUint max) fun v => seqP space0 fun _ => seqP commentOrEnd fun _ => retP v

/-- The separator of a list (parsing.rs l.85). -/
def listSep : P Unit := seqP space0 fun _ => seqP (char ',') fun _ => space0

/-- The end of a list (parsing.rs l.88). -/
def listEnd : P Unit := seqP space0 fun _ => map (fun _ => ()) (char ']')

/-- The loop of `ListCallbackParser` (parsing.rs l.70-97). The callback is a function on a state. The first argument bounds the number
of turns; every turn consumes a digit. -/
def listGo {σ : Type} (cb : σ → Nat → Res Unit σ) : Nat → σ → P σ
  | 0, _ => fail
  | f + 1, st => seqP (decUint usizeMax) fun v => fun s =>
    match cb st v with
    | .err _ => .back
    | .panic => .panic
    | .ok st' =>
      if (Text.trim s).isEmpty then .back
      else match listSep s with
        | .ok _ r => listGo cb f st' r
        | _ => map (fun _ => st') listEnd s

/-- `ListCallbackParser` with `dec_uint::<usize>` (parsing.rs l.59-99). -/
def listP {σ : Type} (cb : σ → Nat → Res Unit σ) (st : σ) : P σ :=
  seqP (char '[') fun _ => seqP space0 fun _ => fun s => listGo cb (s.length + 1) st s

/-- The loop of `SeparatedCallbackParser` (parsing.rs l.123-142) with a callback that stores the values. -/
def sepGo : Nat → P (List Nat)
  | 0 => fail
  | f + 1 => seqP (decUint usizeMax) fun v => fun s =>
    match space1 s with
    | .ok _ r => if r.isEmpty then .ok [v] r else map (fun vs => v :: vs) (sepGo f) r
    | _ => .ok [v] s

/-- `SeparatedCallbackParser` with `dec_uint::<usize>` (parsing.rs l.116-144). -/
def sepP : P (List Nat) := seqP space0 fun _ => fun s => sepGo (s.length + 1) s

/-- The test for comments and empty lines (knapsack.rs l.97, assignment.rs l.63). -/
def skipLine (l : Text) : Bool := Text.startsWith ['#'] (Text.trimStart l) || (Text.trim l).isEmpty

/-- `next_non_comment_line!` (knapsack.rs l.91-105, assignment.rs l.57-71). -/
def nextLine : List Text → Option (Text × List Text)
  | [] => none
  | l :: ls => if skipLine l then nextLine ls else some (l, ls)

/-- The next line, which has to be a single number. -/
def numLine (max : Nat) (ls : List Text) : Option (Nat × List Text) :=
  (nextLine ls).bind fun p => (parse (singleValue max) p.1).map fun n => (n, p.2)

/-! ### Knapsacks -/

/-- The callback for the values (knapsack.rs l.163-174): the state is `item_idx` and the items. -/
def pushValue (st : Nat × List KnapsackItem) (v : Nat) : Res Unit (Nat × List KnapsackItem) :=
  if st.1 ≥ st.2.length then .err ()
  else .ok (st.1 + 1, st.2.modify st.1 fun it => { it with values := it.values ++ [v] })

/-- The callback for the weights (knapsack.rs l.219-230). -/
def setWeight (st : Nat × List KnapsackItem) (v : Nat) : Res Unit (Nat × List KnapsackItem) :=
  if st.1 ≥ st.2.length then .err ()
  else .ok (st.1 + 1, st.2.modify st.1 fun it => { it with weight := v })

/-- The line without the start of the outer list (knapsack.rs l.152-159). -/
def stripOuter (started : Bool) (remain : Text) : Option Text :=
  if started then some remain
  else if Text.startsWith ['['] remain then some (remain.drop 1)
  else none

/-- The loop over the rows of values (knapsack.rs l.143-213): the items and the remaining lines. -/
def kpRows : Bool → List KnapsackItem → List Text → Option (List KnapsackItem × List Text)
  | _, _, [] => none
  | started, items, l :: ls =>
    if Text.startsWith ['#'] (Text.trim l) || (Text.trim l).isEmpty then kpRows started items ls
    else match stripOuter started (Text.trim l) with
      | none => none
      | some remain =>
        match listP pushValue (0, items) remain with
        | .ok st r =>
          if (parse (seqP space0 fun _ => char ',') r).isSome then kpRows true st.2 ls
          else if (parse listEnd r).isSome then some (st.2, ls)
          else none
        | _ => none

/-- The line with the weights (knapsack.rs l.215-243). -/
def kpWeights (items : List KnapsackItem) (ls : List Text) : Option (List KnapsackItem) :=
  (nextLine ls).bind fun p => (parse (listP setWeight (0, items)) (Text.trim p.1)).map (·.2)

/-- `parse_moolib` (knapsack.rs l.107-251). -/
def KnapsackData.parseMoolib (t : Text) : Option KnapsackData :=
  (numLine usizeMax (Text.readLines t)).bind fun p =>
  (numLine usizeMax p.2).bind fun q =>
  (numLine usizeMax q.2).bind fun c =>
  (kpRows false (List.replicate q.1 ⟨0, []⟩) c.2).bind fun r =>
  (kpWeights r.1 r.2).bind fun items =>
  if items.all (fun it => it.values.length == p.1) then some ⟨items, c.1⟩ else none

/-- Reading this many numbers. -/
def readNums : Nat → List Text → Option (List Nat × List Text)
  | 0, ls => some ([], ls)
  | n + 1, ls => (numLine usizeMax ls).bind fun p => (readNums n p.2).map fun q => (p.1 :: q.1, q.2)

/-- The loop over the objectives (knapsack.rs l.287-300): every objective has a value for every item. -/
def voptObjs : Nat → List KnapsackItem → List Text → Option (List KnapsackItem × List Text)
  | 0, items, ls => some (items, ls)
  | n + 1, items, ls => (readNums items.length ls).bind fun p =>
    voptObjs n (List.zipWith (fun it v => { it with values := it.values ++ [v] }) items p.1) p.2

/-- `parse_voptlib` (knapsack.rs l.253-311): the line with the number of objectives is parsed twice. -/
def KnapsackData.parseVoptlib (t : Text) : Option KnapsackData :=
  (numLine usizeMax (Text.readLines t)).bind fun p =>
  (nextLine p.2).bind fun l =>
  (parse (singleValue u32Max) l.1).bind fun nObj =>
  (parse (singleValue u32Max) l.1).bind fun _ =>
  (voptObjs nObj (List.replicate p.1 ⟨0, []⟩) l.2).bind fun r =>
  (readNums p.1 r.2).map fun w => ⟨List.zipWith (fun it v => { it with weight := v }) r.1 w.1, 0⟩

/-! ### Facility location -/

/-- A line that has to be a single number (facilitylocation.rs l.67-77, l.83-99). -/
def plainNum (ls : List Text) : Option (Nat × List Text) :=
  match ls with
  | [] => none
  | l :: ls => (parse (singleValue u32Max) l).map fun n => (n, ls)

/-- Reading this many rows (facilitylocation.rs l.110-125). -/
def plainRows : Nat → List Text → Option (List Nat × List Text)
  | 0, ls => some ([], ls)
  | _ + 1, [] => none
  | n + 1, l :: ls => (parse sepP (Text.trimEnd l)).bind fun vs => (plainRows n ls).map fun q => (vs ++ q.1, q.2)

/-- A line that is not looked at, then this many rows (facilitylocation.rs l.109-126, l.129-143). -/
def plainBlock (n : Nat) (ls : List Text) : Option (List Nat × List Text) :=
  match ls with
  | [] => none
  | _ :: ls => plainRows n ls

/-- `parse_voptlib` (facilitylocation.rs l.79-147). -/
def FacilityData.parseVoptlib (t : Text) : Option FacilityData :=
  (plainNum (Text.readLines t)).bind fun u =>
  (plainNum u.2).bind fun s =>
  (plainBlock u.1 s.2).bind fun c1 =>
  (plainBlock u.1 c1.2).bind fun c2 =>
  (plainBlock 1 c2.2).bind fun r1 =>
  (plainBlock 1 r1.2).map fun r2 => ⟨2, u.1, s.1, c1.1 ++ c2.1, r1.1 ++ r2.1⟩

/-! ### Assignment problems -/

/-- The variables of the loop in `parse_moolib` (assignment.rs l.91-95). `depth` is an `i32`. -/
structure ApState where
  depth : Int
  obj : Nat
  task : Nat
  costs : List Nat
deriving DecidableEq, Repr

/-- The callback for a row (assignment.rs l.134-143) with `cost_mut` (l.38-41): the state is `agent_idx` and the costs. The assertions
of `idx`, which are only checked in debug builds, are not modelled. -/
def setCost (n obj task : Nat) (st : Nat × List Nat) (v : Nat) : Res Unit (Nat × List Nat) :=
  if st.1 ≥ n then .err ()
  else if obj * n * n + task * n + st.1 < st.2.length then .ok (st.1 + 1, st.2.set (obj * n * n + task * n + st.1) v)
  else .panic

/-- What one turn of the inner loop does. -/
inductive ApTurn where
  | next (st : ApState) (remain : Text)
  | stop (st : ApState)
  | err
  | panic
deriving DecidableEq, Repr

/-- The end of a turn (assignment.rs l.126-163). -/
def apRow (n : Nat) (st : ApState) (remain : Text) : ApTurn :=
  if Text.startsWith ['#'] remain || (Text.trim remain).isEmpty then .stop st
  else if st.depth = 2 then
    match listP (setCost n st.obj st.task) (0, st.costs) remain with
    | .ok p r => .next { st with costs := p.2 } r
    | .panic => .panic
    | _ => .err
  else .next st remain

/-- A comma, then the end of the turn (assignment.rs l.111-125). -/
def apComma (n nObjs : Nat) (st : ApState) (remain : Text) : ApTurn :=
  if Text.startsWith [','] remain then
    if st.depth = 1 then
      if st.obj + 1 < nObjs then apRow n { st with obj := st.obj + 1 } (remain.drop 1) else .err
    else if st.depth = 2 then
      if st.obj < nObjs then apRow n { st with task := st.task + 1 } (remain.drop 1) else .err
    else .panic
  else apRow n st remain

/-- A closing bracket, then the rest of the turn (assignment.rs l.104-110). -/
def apClose (n nObjs : Nat) (st : ApState) (remain : Text) : ApTurn :=
  if Text.startsWith [']'] remain then
    apComma n nObjs { st with depth := st.depth - 1, task := if st.depth - 1 = 1 then 0 else st.task } (remain.drop 1)
  else apComma n nObjs st remain

/-- One turn of the inner loop (assignment.rs l.99-164). -/
def apTurn (n nObjs : Nat) (st : ApState) (remain : Text) : ApTurn :=
  if Text.startsWith ['['] remain && decide (st.depth < 2) then
    apClose n nObjs { st with depth := st.depth + 1 } (remain.drop 1)
  else apClose n nObjs st remain

/-- The inner loop for a line; `done none` is an error. -/
def apLine (n nObjs : Nat) : Nat → ApState → Text → SearchResult (Option ApState)
  | 0, _, _ => .running
  | f + 1, st, remain =>
    match apTurn n nObjs st remain with
    | .next st remain => apLine n nObjs f st remain
    | .stop st => .done (some st)
    | .err => .done none
    | .panic => .panic

/-- The loop over the lines (assignment.rs l.96-166), with this many turns of the inner loop for every line. -/
def apLines (n nObjs fuel : Nat) : ApState → List Text → SearchResult (Option ApState)
  | st, [] => .done (some st)
  | st, l :: ls =>
    match apLine n nObjs fuel st (Text.trimStart l) with
    | .done (some st) => apLines n nObjs fuel st ls
    | .done none => .done none
    | .panic => .panic
    | .running => .running

/-- `parse_moolib` (assignment.rs l.73-172) with `empty` (l.15-21). -/
def AssignmentData.parseMoolib (fuel : Nat) (t : Text) : SearchResult (Option AssignmentData) :=
  match numLine usizeMax (Text.readLines t) with
  | none => .done none
  | some p =>
    match numLine usizeMax p.2 with
    | none => .done none
    | some q =>
      match apLines q.1 p.1 fuel ⟨0, 0, 0, List.replicate (p.1 * q.1 * q.1) 0⟩ q.2 with
      | .done (some st) => .done (if st.obj + 1 = p.1 then some ⟨q.1, p.1, st.costs⟩ else none)
      | .done none => .done none
      | .panic => .panic
      | .running => .running

end Problems
end RustSat
