import Verif.Model.Opb

/-
`src/types/mod.rs` (value lines) and `src/instances/fio/mod.rs` (output of SAT solvers).
-/

namespace RustSat
open Text

/-- `str::parse::<i32>`: an optional sign and at least one digit, within range. -/
def parseI32 (t : Text) : Option Int :=
  match t with
  | '-' :: ds => if ds ≠ [] ∧ ds.all isDigit = true ∧ readNat ds ≤ 2147483648 then some (-(readNat ds : Int)) else none
  | '+' :: ds => if ds ≠ [] ∧ ds.all isDigit = true ∧ readNat ds ≤ 2147483647 then some (readNat ds : Int) else none
  | ds => if ds ≠ [] ∧ ds.all isDigit = true ∧ readNat ds ≤ 2147483647 then some (readNat ds : Int) else none

/-- `VLineFormat` (types/mod.rs l.778-786). -/
inductive VLineFormat where
  | satComp | maxSatEval | pbComp
deriving DecidableEq, Repr

/-- A character of a MaxSAT Evaluation value line. -/
def isBit (c : Char) : Bool := c == '1' || c == '0'

/-- The format of a non-empty value line (types/mod.rs l.993-1010); `none` is the panic of `lines[1..]` if the first
character takes more than one byte. -/
def vLineFormat (t : Text) : Option VLineFormat :=
  if 'x' ∈ t then some .pbComp
  else
    match t with
    | [] => none
    | c :: r =>
      if 128 ≤ c.toNat then none
      else if ' ' ∉ trim r ∧ trim r ≠ ['0'] ∧ (trim r).all isBit = true then some .maxSatEval
      else some .satComp

namespace Assignment

/-- `Assignment::extend_sat_comp_vline` (types/mod.rs l.1033-1054) on the words of a line. -/
def extendSatWords : Assignment → List Text → Res InvalidVLine Assignment
  | a, [] => .ok a
  | a, w :: ws =>
    match parseI32 w with
    | none => .err .invalidInt
    | some n =>
      match a.extendSatComp [n] with
      | .ok a' => extendSatWords a' ws
      | .err e => .err e
      | .panic => .panic

/-- `Assignment::extend_maxsat_eval_vline` (types/mod.rs l.1057-1068) on the characters of the trimmed line. -/
def extendBits : Assignment → Text → Res InvalidVLine Assignment
  | a, [] => .ok a
  | a, c :: r =>
    if c = '0' then extendBits ⟨a.vals ++ [.false]⟩ r
    else if c = '1' then extendBits ⟨a.vals ++ [.true]⟩ r
    else .err (.invalidCharacter c)

/-- `Assignment::extend_pb_comp_vline` (types/mod.rs l.1071-1092) on the words of a line. -/
def extendPbWords : Assignment → List Text → Res InvalidVLine Assignment
  | a, [] => .ok a
  | a, w :: ws =>
    match Opb.literal Opb.Options.dflt w with
    | .ok l [] =>
      if a.litValue l = .true ∧ l.isNeg ∨ a.litValue l = .false ∧ l.isPos then .err (.conflictingAssignment l.var)
      else extendPbWords (a.assignLit l) ws
    | .panic => .panic
    | _ => .err .parsing

/-- The rest of a line in a given format (types/mod.rs l.1021-1025). -/
def extendLine (a : Assignment) (r : Text) : VLineFormat → Res InvalidVLine Assignment
  | .satComp => a.extendSatWords (splitWs r)
  | .maxSatEval => a.extendBits (trim r)
  | .pbComp => a.extendPbWords (splitWs r)

/-- The loop over lines (types/mod.rs l.1012-1027). -/
def extendLines (f : VLineFormat) : Assignment → List Text → Res InvalidVLine Assignment
  | a, [] => .ok a
  | _, [] :: _ => .err .emptyLine
  | a, (c :: r) :: ls =>
    if c ≠ 'v' then .err (.invalidTag c)
    else
      match a.extendLine r f with
      | .ok a' => extendLines f a' ls
      | .err e => .err e
      | .panic => .panic

/-- `Assignment::extend_from_vline` (types/mod.rs l.988-1030). After an error the Rust assignment holds the values read
so far; no caller in the crate uses it then. -/
def extendFromVline (a : Assignment) (t : Text) : Res InvalidVLine Assignment :=
  if t = [] then .err .emptyLine
  else
    match vLineFormat t with
    | none => .panic
    | some f => a.extendLines f (lines t)

/-- `Assignment::from_vline` (types/mod.rs l.972-976). -/
def fromVline (t : Text) : Res InvalidVLine Assignment := empty.extendFromVline t

end Assignment

/-- `SolverOutput` (fio/mod.rs l.205-213). -/
inductive SolverOutput where
  | sat (a : Assignment)
  | unsat
  | unknown
deriving DecidableEq, Repr

/-- `SatSolverOutputError` (fio/mod.rs l.217-236), without I/O errors. -/
inductive SatSolverOutputError where
  | invalidVLine (e : InvalidVLine)
  | noSLine
  | noVLine
  | invalidSLine
deriving DecidableEq, Repr

/-- The effect of a line on the verdict: return, or go on with a new value of `is_sat`. -/
inductive SStep where
  | done (r : Res SatSolverOutputError SolverOutput)
  | goOn (isSat : Bool)

/-- The part of the loop about solution lines (fio/mod.rs l.253-267). -/
def sStep (isSat : Bool) (l : Text) : SStep :=
  if startsWith ['s', ' '] l then
    if startsWith "UNSATISFIABLE".toList (trimStart (l.drop 1)) then .done (.ok .unsat)
    else if startsWith "UNKNOWN".toList (trimStart (l.drop 1)) || startsWith "INDETERMINATE".toList (trimStart (l.drop 1)) then
      .done (.ok .unknown)
    else if startsWith "SATISFIABLE".toList (trimStart (l.drop 1)) then .goOn true
    else .done (.err .invalidSLine)
  else .goOn isSat

/-- The part of the loop about value lines (fio/mod.rs l.270-275). -/
def vStep (sol : Option Assignment) (l : Text) : Res InvalidVLine (Option Assignment) :=
  if startsWith ['v', ' '] l then
    match (match sol with | some a => a.extendFromVline l | none => Assignment.fromVline l) with
    | .ok a => .ok (some a)
    | .err e => .err e
    | .panic => .panic
  else .ok sol

/-- The loop of `parse_sat_solver_output` and what follows it (fio/mod.rs l.250-287). -/
def solverLoop (isSat : Bool) (sol : Option Assignment) : List Text → Res SatSolverOutputError SolverOutput
  | [] =>
    if isSat = false then .err .noSLine
    else
      match sol with
      | some a => .ok (.sat a)
      | none => .err .noVLine
  | l :: ls =>
    match sStep isSat l with
    | .done r => r
    | .goOn isSat' =>
      match vStep sol l with
      | .ok sol' => solverLoop isSat' sol' ls
      | .err e => .err (.invalidVLine e)
      | .panic => .panic

/-- `parse_sat_solver_output` (fio/mod.rs l.244-288). -/
def parseSatSolverOutput (t : Text) : Res SatSolverOutputError SolverOutput := solverLoop false none (lines t)

/-- `AssignmentFromSolverOutputError` (types/mod.rs l.825-841), without I/O errors. -/
inductive AssignmentFromSolverOutputError where
  | invalidSolverOutput (e : SatSolverOutputError)
  | notSat
deriving DecidableEq, Repr

/-- `Assignment::from_solver_output_path` (types/mod.rs l.956-965) on the text of the file. -/
def Assignment.fromSolverOutput (t : Text) : Res AssignmentFromSolverOutputError Assignment :=
  match parseSatSolverOutput t with
  | .ok (.sat a) => .ok a
  | .ok _ => .err .notSat
  | .err e => .err (.invalidSolverOutput e)
  | .panic => .panic

end RustSat
