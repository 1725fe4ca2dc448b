import Verif.Model.Text
import Verif.Model.CertDb
/-
Model of the text that the proof logging library `pigeons` writes: pigeons/src/lib.rs (`Proof` and all its methods),
pigeons/src/types.rs (the `Display` implementations) and pigeons/src/ops.rs (`Display`).

Simplifications: a variable is its text, i.e. what its `VarLike::Formatter` displays; constraints and objectives are
the data that `ConstraintLike` and `ObjectiveLike` give; numbers are unbounded (`NonZeroUsize`, `usize` and `isize` in the
code, where `range.end - 1` of a conclusion overflows for `isize::MIN`); the hash set of variables of an order is the list
in the order of its iteration, which is the same for every iteration. Writing never fails: I/O errors are not modelled.
A panic is `none`. The flag `short` is the feature `short-keywords`.
-/
namespace RustSat
namespace ProofText
open Text (showNat showInt)

/-- Joining texts by spaces: `Itertools::format(" ")`. -/
def joinSp : List Text → Text
  | [] => []
  | [t] => t
  | t :: ts => t ++ ' ' :: joinSp ts

/-- `Axiom` (types.rs l.237-245). -/
structure Ax where
  neg : Bool
  var : Text
deriving DecidableEq, Repr

/-- `Display for Axiom` (types.rs l.259-268). -/
def Ax.text (a : Ax) : Text := (if a.neg then ['~'] else []) ++ a.var

/-- `ConstraintId` (types.rs l.23-42): absolute, or relative to the end. -/
inductive CId where
  | abs (n : Nat)
  | rel (n : Nat)
deriving DecidableEq, Repr

/-- `Display for ConstraintId` (types.rs l.111-118, 156-160, 200-204). -/
def CId.text : CId → Text
  | .abs n => showNat n
  | .rel n => '-' :: showNat n

/-- `RelConstraintId::make_absolute` and `ConstraintId::make_absolute` (types.rs l.68-75, 185-198): panics if the relative
id is larger than the number of used ids. -/
def CId.makeAbsolute (nextFree : Nat) : CId → Option Nat
  | .abs n => some n
  | .rel n => if n < nextFree then some (nextFree - n) else none

/-- `ConstraintId::increment` (types.rs l.77-95). -/
def CId.increment (nextFree : Nat) : CId → CId
  | .abs n => .abs (n + 1)
  | .rel n => if n = 1 then .abs nextFree else .rel (n - 1)

/-- `ConstraintId::less` (types.rs l.97-108). -/
def CId.less (nextFree : Nat) (lhs rhs : CId) : Option Bool :=
  match rhs.makeAbsolute nextFree with
  | none => none
  | some r =>
    match lhs.makeAbsolute nextFree with
    | none => none
    | some l => some (decide (l < r))

/-- What `ConstraintLike` says about a constraint (lib.rs l.1041-1047). -/
structure Con where
  sum : List (Int × Ax)
  rhs : Int
deriving DecidableEq, Repr

/-- The sum of coefficients and literals (types.rs l.899-905, 925-932). -/
def sumText (sum : List (Int × Ax)) : Text := joinSp (sum.map fun t => showInt t.1 ++ ' ' :: t.2.text)

/-- `Display for ConstrFormatter` (types.rs l.923-934). -/
def Con.text (c : Con) : Text := sumText c.sum ++ " >= ".toList ++ showInt c.rhs

/-- What `ObjectiveLike` says about an objective (lib.rs l.1050-1055). -/
structure Obj where
  sum : List (Int × Ax)
  offset : Int
deriving DecidableEq, Repr

/-- `Display for ObjFormatter` (types.rs l.897-907): the offset is not written. -/
def Obj.text (o : Obj) : Text := sumText o.sum

/-- `Operation` (ops.rs l.225-244). -/
inductive Op where
  | id (i : CId)
  | ax (a : Ax)
  | add
  | mult (k : Nat)
  | div (k : Nat)
  | sat
  | weak
deriving DecidableEq, Repr

/-- `Display for Operation` (ops.rs l.258-270). -/
def Op.text : Op → Text
  | .id i => i.text
  | .ax a => a.text
  | .add => ['+']
  | .mult k => showNat k ++ " *".toList
  | .div k => showNat k ++ " d".toList
  | .sat => ['s']
  | .weak => ['w']

/-- `Display for OperationSequence` (ops.rs l.154-162): panics for the empty sequence. -/
def opsText (ops : List Op) : Option Text := if ops = [] then none else some (joinSp (ops.map Op.text))

/-- `SubstituteWith` (types.rs l.328-337). -/
inductive With where
  | true_
  | false_
  | lit (a : Ax)
deriving DecidableEq, Repr

/-- `Display for SubstituteWith` (types.rs l.349-357). -/
def With.text : With → Text
  | .true_ => ['1']
  | .false_ => ['0']
  | .lit a => a.text

/-- `Substitution` (types.rs l.291-299). -/
structure Sub where
  var : Text
  sub : With
deriving DecidableEq, Repr

/-- `Display for Substitution` (types.rs l.321-325). -/
def Sub.text (s : Sub) : Text := s.var ++ " -> ".toList ++ s.sub.text

/-- The substitutions of a step. -/
def subsText (subs : List Sub) : Text := joinSp (subs.map Sub.text)

/-- `Derivation` (types.rs l.518-526). -/
inductive Deriv where
  | rup (c : Con) (hints : List CId)
  | ops (ops : List Op)
deriving DecidableEq, Repr

/-- The keyword of reverse unit propagation. -/
def rupWord (short : Bool) : Text := if short then ['u'] else "rup".toList
/-- The keyword of operations. -/
def polWord (short : Bool) : Text := if short then ['p'] else "pol".toList

/-- Ids. -/
def idsText (ids : List CId) : Text := joinSp (ids.map CId.text)

/-- `Display for Derivation` (types.rs l.537-563). -/
def Deriv.text (short : Bool) : Deriv → Option Text
  | .rup c hints => some (rupWord short ++ ' ' :: (c.text ++ " ; ".toList ++ idsText hints))
  | .ops l =>
    match opsText l with
    | none => none
    | some t => some (polWord short ++ ' ' :: t)

/-- `ProofGoalId` (types.rs l.686-694). -/
inductive GoalId where
  | constr (i : CId)
  | specific (n : Nat)
deriving DecidableEq, Repr

/-- `Display for ProofGoalId` (types.rs l.714-721). -/
def GoalId.text : GoalId → Text
  | .constr i => i.text
  | .specific n => '#' :: showNat n

/-- `ProofGoal` (types.rs l.589-597). -/
structure Goal where
  id : GoalId
  derivations : List Deriv
deriving DecidableEq, Repr

/-- A number of spaces: `{:indent$}` of the empty string. -/
def spaces (n : Nat) : Text := List.replicate n ' '

/-- The lines of the derivations of a goal. -/
def derivLines (short : Bool) (indent : Nat) : List Deriv → Option Text
  | [] => some []
  | d :: ds =>
    match d.text short, derivLines short indent ds with
    | some t, some u => some (spaces indent ++ "  ".toList ++ t ++ '\n' :: u)
    | _, _ => none

/-- `ProofGoal::write_indented` and `format_indented` (types.rs l.633-678). -/
def Goal.text (short : Bool) (indent : Nat) (g : Goal) : Option Text :=
  match derivLines short indent g.derivations with
  | none => none
  | some t => some (spaces indent ++ "proofgoal ".toList ++ g.id.text ++ '\n' :: (t ++ (spaces indent ++ "qed -1".toList)))

/-- Goals, each followed by the end of the line (types.rs l.500-503, 509-512, 768-771). -/
def goalLines (short : Bool) (indent : Nat) : List Goal → Option Text
  | [] => some []
  | g :: gs =>
    match g.text short indent, goalLines short indent gs with
    | some t, some u => some (t ++ '\n' :: u)
    | _, _ => none

/-- `SubproofElement` (types.rs l.566-575). -/
inductive Element where
  | deriv (d : Deriv)
  | goal (g : Goal)
deriving DecidableEq, Repr

/-- `Order` (types.rs l.359-368). -/
structure Order where
  name : Text
  usedVars : List Text
  definition : List Con
  transProof : List Goal
  reflProof : Option (List Goal)
deriving DecidableEq, Repr

/-- `OrderVar` and its `Display` (types.rs l.370-394): a variable of the left or right side, or fresh. -/
def leftVar (v : Text) : Text := 'u' :: '_' :: v
def rightVar (v : Text) : Text := 'v' :: '_' :: v
def freshVar (v : Text) : Text := 'w' :: '_' :: v

namespace Order
/-- `Order::new` (types.rs l.397-407). -/
def new (name : Text) : Order := ⟨name, [], [], [], none⟩
/-- `Order::use_var` (types.rs l.420-425), returning the left and the right variable. -/
def useVar (o : Order) (v : Text) : (Text × Text) × Order :=
  ((leftVar v, rightVar v), if v ∈ o.usedVars then o else { o with usedVars := o.usedVars ++ [v] })
/-- `Order::add_definition_constraint` (types.rs l.432-456). -/
def addDefinition (o : Order) (c : Con) (trans : List Deriv) (refl : Option (List Deriv)) : Order :=
  let n := o.definition.length + 1
  { o with
    definition := o.definition ++ [c]
    transProof := o.transProof ++ [⟨.specific n, trans⟩]
    reflProof :=
      match refl with
      | none => o.reflProof
      | some ds =>
        match o.reflProof with
        | some gs => some (gs ++ [⟨.specific n, ds⟩])
        | none => some [⟨.specific n, ds⟩] }

/-- The lines of the definition. -/
def defLines : List Con → Text
  | [] => []
  | c :: cs => "    ".toList ++ c.text ++ " ;\n".toList ++ defLines cs

/-- The proof of reflexivity, if there is one (types.rs l.505-514). -/
def reflText (short : Bool) : Option (List Goal) → Option Text
  | none => some []
  | some gs =>
    match goalLines short 6 gs with
    | none => none
    | some t => some ("  reflexivity\n    proof\n".toList ++ t ++ "    qed\n  end\n".toList)

/-- `Display for Order` (types.rs l.459-515). -/
def text (short : Bool) (o : Order) : Option Text :=
  match goalLines short 6 o.transProof with
  | none => none
  | some trans =>
    match reflText short o.reflProof with
    | none => none
    | some refl =>
      some ("def_order ".toList ++ o.name ++ "\n  vars\n    left ".toList ++ joinSp (o.usedVars.map leftVar) ++
        "\n    right ".toList ++ joinSp (o.usedVars.map rightVar) ++ "\n    aux\n  end\n  def\n".toList ++
        defLines o.definition ++ "  end\n  transitivity\n    vars\n      fresh_right ".toList ++
        joinSp (o.usedVars.map freshVar) ++ "\n    end\n    proof\n".toList ++ trans ++ "    qed\n  end\n".toList ++
        refl ++ "end".toList)
end Order

/-- `ObjectiveUpdate` (types.rs l.723-731). -/
inductive ObjUpdate where
  | new (o : Obj) (subproof : List Goal)
  | diff (o : Obj)
deriving DecidableEq, Repr

/-- `Display for ObjectiveUpdate` (types.rs l.754-779). -/
def ObjUpdate.text (short : Bool) : ObjUpdate → Option Text
  | .new o subproof =>
    if subproof = [] then some ("new ".toList ++ o.text ++ " ;\n".toList)
    else
      match goalLines short 2 subproof with
      | none => none
      | some t => some ("new ".toList ++ o.text ++ " ; begin\n".toList ++ t ++ "end\n".toList)
  | .diff o => some ("diff ".toList ++ o.text ++ " ;".toList)

/-- `OutputType` (types.rs l.806-814). -/
inductive OutType where
  | implicit
  | file
deriving DecidableEq, Repr

/-- `OutputGuarantee` (types.rs l.781-793). -/
inductive Output where
  | none
  | derivable (t : OutType)
  | equisatisfiable (t : OutType)
  | equioptimal (t : OutType)
deriving DecidableEq, Repr

/-- `Display for OutputType` (types.rs l.816-823). -/
def OutType.text : OutType → Text
  | .implicit => "IMPLICIT".toList
  | .file => "FILE".toList

/-- `Display for OutputGuarantee` (types.rs l.795-804). -/
def Output.text : Output → Text
  | .none => "NONE".toList
  | .derivable t => "DERIVABLE ".toList ++ t.text
  | .equisatisfiable t => "EQUISATISFIABLE ".toList ++ t.text
  | .equioptimal t => "EQUIOPTIMAL ".toList ++ t.text

/-- `Conclusion` (types.rs l.825-844); the range of bounds is the half-open range from `start` to `stop`. -/
inductive Conclusion where
  | none
  | sat (sol : Option (List Ax))
  | unsat (id : Option CId)
  | bounds (start stop : Int) (lbId : Option CId) (ubSol : Option (List Ax))
deriving DecidableEq, Repr

/-- Literals. -/
def litsText (lits : List Ax) : Text := joinSp (lits.map Ax.text)

/-- An id after a colon, if there is one. -/
def colonId : Option CId → Text
  | some id => " : ".toList ++ id.text
  | none => []
/-- A solution after a colon, if there is one. -/
def colonSol : Option (List Ax) → Text
  | some sol => " : ".toList ++ litsText sol
  | none => []

/-- `Display for Conclusion` (types.rs l.846-881). -/
def Conclusion.text : Conclusion → Text
  | .none => "NONE".toList
  | .sat (some sol) => "SAT : ".toList ++ litsText sol
  | .sat Option.none => "SAT".toList
  | .unsat (some id) => "UNSAT : ".toList ++ id.text
  | .unsat Option.none => "UNSAT".toList
  | .bounds start stop lbId ubSol =>
    "BOUNDS ".toList ++ showInt start ++ colonId lbId ++ ' ' :: (showInt (stop - 1) ++ colonSol ubSol)

/-- `Proof` (lib.rs l.95-110): what was written, and the fields. -/
structure Proof where
  out : Text
  nextId : Nat
  nextPv : Nat
  optimization : Bool
  firstProofId : Nat
  default : Output × Text
deriving DecidableEq, Repr

namespace Proof
/-- `writeln!`. -/
def writeln (p : Proof) (t : Text) : Proof := { p with out := p.out ++ (t ++ ['\n']) }
/-- `write!`. -/
def write (p : Proof) (t : Text) : Proof := { p with out := p.out ++ t }
/-- Panicking when the text of a line cannot be displayed. -/
def writeln? (p : Proof) (t : Option Text) : Option Proof :=
  match t with
  | none => none
  | some t => some (p.writeln t)

/-- `verify_num_constraints` (lib.rs l.273-286). -/
def verifyNumConstraints (p : Proof) (n : Nat) : Proof := p.writeln ("f ".toList ++ showNat n)
/-- `Proof::new_with_conclusion` (lib.rs l.164-202). -/
def newWithConclusion (n : Nat) (optimization : Bool) (g : Output) (c : Conclusion) : Proof :=
  verifyNumConstraints ⟨"pseudo-Boolean proof version 2.0\n".toList, n + 1, 0, optimization, n + 1, (g, c.text)⟩ n
/-- `Proof::new` (lib.rs l.126-162). -/
def new (n : Nat) (optimization : Bool) : Proof :=
  verifyNumConstraints
    ⟨"pseudo-Boolean proof version 2.0\n".toList, n + 1, 0, optimization, n + 1, (.none, Conclusion.none.text)⟩ n
/-- `update_default_conclusion` (lib.rs l.204-211). -/
def updateDefaultConclusion (p : Proof) (g : Output) (c : Conclusion) : Proof := { p with default := (g, c.text) }
/-- `new_id` (lib.rs l.213-219). -/
def newId (p : Proof) : Nat × Proof := (p.nextId, { p with nextId := p.nextId + 1 })
/-- `new_proof_var` (lib.rs l.253-259) with `Display for ProofOnlyVar` (types.rs l.213-217). -/
def newProofVar (p : Proof) : Text × Proof := ('p' :: 'v' :: showNat p.nextPv, { p with nextPv := p.nextPv + 1 })

/-- The loop over the elements of a sub-proof (lib.rs l.232-246). -/
def writeElements (short : Bool) (p : Proof) : List Element → Option Proof
  | [] => some p
  | .deriv d :: es =>
    match d.text short with
    | none => none
    | some t => writeElements short { p.writeln ("  ".toList ++ t) with nextId := p.nextId + 1 } es
  | .goal g :: es =>
    match g.text short 2 with
    | none => none
    | some t => writeElements short { p.writeln t with nextId := p.nextId + (1 + g.derivations.length) } es

/-- `write_subproof` (lib.rs l.221-251). -/
def writeSubproof (short : Bool) (p : Proof) (es : List Element) : Option Proof :=
  if es = [] then some (p.writeln [])
  else
    match writeElements short ({ p with nextId := p.nextId + 1 }.writeln " ; begin".toList) es with
    | none => none
    | some p => some (p.writeln "end".toList)

/-- `comment` (lib.rs l.288-303). -/
def comment (p : Proof) (t : Text) : Proof := p.writeln ("* ".toList ++ t)
/-- `multiline_comment` (lib.rs l.305-319). -/
def multilineComment (p : Proof) (t : Text) : Proof := (Text.lines t).foldl comment p
/-- `operations` (lib.rs l.321-342). -/
def operations (short : Bool) (p : Proof) (ops : List Op) : Option (Nat × Proof) :=
  match opsText ops with
  | none => none
  | some t => some (p.writeln (polWord short ++ ' ' :: t)).newId
/-- `reverse_unit_prop` (lib.rs l.344-380). -/
def reverseUnitProp (short : Bool) (p : Proof) (c : Con) (hints : List CId) : Nat × Proof :=
  if hints = [] then (p.writeln (rupWord short ++ ' ' :: (c.text ++ " ;".toList))).newId
  else (p.writeln (rupWord short ++ ' ' :: (c.text ++ " ; ".toList ++ idsText hints))).newId
/-- `delete_ids` (lib.rs l.382-402). -/
def deleteIds (short : Bool) (p : Proof) (ids : List CId) (es : List Element) : Option Proof :=
  (p.write ("del id ".toList ++ idsText ids ++ " ;".toList)).writeSubproof short es
/-- `delete_constr` (lib.rs l.404-419). -/
def deleteConstr (p : Proof) (c : Con) : Proof := p.writeln ("del spec ".toList ++ c.text ++ " ;".toList)

/-- `std::ops::Bound`. -/
inductive Bound where
  | included (i : CId)
  | excluded (i : CId)
  | unbounded
deriving DecidableEq, Repr

/-- The first id of a range (lib.rs l.438-442, 628-632). -/
def rangeStart (next : Nat) : Bound → CId
  | .included b => b
  | .excluded b => b.increment next
  | .unbounded => .abs 1
/-- The id after a range (lib.rs l.443-447, 633-637). -/
def rangeEnd (next : Nat) : Bound → CId
  | .included b => b.increment next
  | .excluded b => b
  | .unbounded => .abs next
/-- The lines with ranges (lib.rs l.438-449, 628-639), with the words they begin with. -/
def rangeLine (p : Proof) (word : Text) (lo hi : Bound) : Option Proof :=
  let a := rangeStart p.nextId lo
  let b := rangeEnd p.nextId hi
  match a.less p.nextId b with
  | some true => some (p.writeln (word ++ a.text ++ ' ' :: b.text))
  | _ => none
/-- `delete_id_range` (lib.rs l.421-450). -/
def deleteIdRange (p : Proof) (lo hi : Bound) : Option Proof := p.rangeLine "del range ".toList lo hi
/-- `delete_core_ids` (lib.rs l.452-468). -/
def deleteCoreIds (p : Proof) (ids : List CId) : Proof := p.writeln ("delc ".toList ++ idsText ids)
/-- `delete_derived_ids` (lib.rs l.470-486). -/
def deleteDerivedIds (p : Proof) (ids : List CId) : Proof := p.writeln ("deld ".toList ++ idsText ids)
/-- `update_objective` (lib.rs l.488-512). -/
def updateObjective (short : Bool) (p : Proof) (u : ObjUpdate) : Option Proof :=
  if p.optimization then
    match u.text short with
    | none => none
    | some t => some (p.writeln ("obju ".toList ++ t))
  else none
/-- `substitute` (lib.rs l.514-529). -/
def substitute (p : Proof) (subs : List Sub) : Proof := p.writeln (subsText subs)
/-- `redundant` (lib.rs l.531-560). -/
def redundant (short : Bool) (p : Proof) (c : Con) (subs : List Sub) (es : List Element) : Option (Nat × Proof) :=
  match (p.write ("red ".toList ++ c.text ++ " ; ".toList ++ subsText subs)).writeSubproof short es with
  | none => none
  | some p => some p.newId
/-- `dominated` (lib.rs l.562-591). -/
def dominated (short : Bool) (p : Proof) (c : Con) (subs : List Sub) (es : List Element) : Option (Nat × Proof) :=
  match (p.write ("dom ".toList ++ c.text ++ " ; ".toList ++ subsText subs)).writeSubproof short es with
  | none => none
  | some p => some p.newId
/-- `move_ids_to_core` (lib.rs l.593-609). -/
def moveIdsToCore (p : Proof) (ids : List CId) : Proof := p.writeln ("core id ".toList ++ idsText ids)
/-- `move_range_to_core` (lib.rs l.611-640). -/
def moveRangeToCore (p : Proof) (lo hi : Bound) : Option Proof := p.rangeLine "core range ".toList lo hi
/-- `solution` (lib.rs l.642-657). -/
def solution (p : Proof) (lits : List Ax) : Proof := p.writeln ("sol ".toList ++ litsText lits)
/-- `exclude_solution` (lib.rs l.659-675). -/
def excludeSolution (p : Proof) (lits : List Ax) : Nat × Proof := (p.writeln ("solx ".toList ++ litsText lits)).newId
/-- `improve_solution` (lib.rs l.677-693). -/
def improveSolution (p : Proof) (lits : List Ax) : Nat × Proof := (p.writeln ("soli ".toList ++ litsText lits)).newId
/-- `output` (lib.rs l.695-706). -/
def output (p : Proof) (g : Output) : Proof := p.writeln ("output ".toList ++ g.text)
/-- `conclude` (lib.rs l.748-765) with `conclusion` (l.708-719) and `end` (l.721-746): the written file. -/
def conclude (p : Proof) (g : Output) (c : Conclusion) : Text :=
  (((p.output g).writeln ("conclusion ".toList ++ c.text)).writeln "end pseudo-Boolean proof".toList).out
/-- `Drop for Proof` (lib.rs l.112-120): the written file. -/
def drop (p : Proof) : Text :=
  (((p.writeln ("output ".toList ++ p.default.1.text)).writeln ("conclusion ".toList ++ p.default.2)).writeln
    "end pseudo-Boolean proof".toList).out
/-- The lines with a constraint and an optional id (lib.rs l.767-794, 849-876), with the words they begin with. -/
def conLine (p : Proof) (word : Text) (c : Con) : Option CId → Proof
  | some id => p.writeln (word ++ c.text ++ " ; ".toList ++ id.text)
  | none => p.writeln (word ++ c.text ++ " ;".toList)
/-- `equals` (lib.rs l.767-794). -/
def equals (p : Proof) (c : Con) (id : Option CId) : Proof := p.conLine "e ".toList c id
/-- `equals_add` (lib.rs l.796-825). -/
def equalsAdd (p : Proof) (c : Con) (id : Option CId) : Nat × Proof := (p.conLine "ea ".toList c id).newId
/-- `obj_equals` (lib.rs l.827-847). -/
def objEquals (p : Proof) (o : Obj) : Option Proof :=
  if p.optimization then some (p.writeln ("eobj ".toList ++ o.text ++ " ;".toList)) else none
/-- `implied` (lib.rs l.849-876). -/
def implied (p : Proof) (c : Con) (id : Option CId) : Proof := p.conLine "i ".toList c id
/-- `implied_add` (lib.rs l.878-906). -/
def impliedAdd (p : Proof) (c : Con) (id : Option CId) : Nat × Proof := (p.conLine "ia ".toList c id).newId
/-- `set_level` (lib.rs l.908-919). -/
def setLevel (p : Proof) (n : Nat) : Proof := p.writeln ("# ".toList ++ showNat n)
/-- `wipe_level` (lib.rs l.921-932). -/
def wipeLevel (p : Proof) (n : Nat) : Proof := p.writeln ("w ".toList ++ showNat n)
/-- `define_order` (lib.rs l.934-949). -/
def defineOrder (short : Bool) (p : Proof) (o : Order) : Option Proof := p.writeln? (o.text short)
/-- `load_order` (lib.rs l.951-971). -/
def loadOrder (p : Proof) (name : Text) (vars : List Text) : Proof :=
  p.writeln ("load_order ".toList ++ name ++ ' ' :: joinSp vars)
/-- `strengthening_to_core` (lib.rs l.973-988). -/
def strengtheningToCore (p : Proof) (on : Bool) : Proof :=
  p.writeln ("strengthening_to_core ".toList ++ (if on then "on".toList else "off".toList))
end Proof

/-! ### The library's variables -/

/-- `PigeonVarFormatter` (src/types/mod.rs l.1240-1261): variables are numbered from one. -/
def varName (v : Nat) : Text := 'x' :: showNat (v + 1)
/-- `From<Lit> for Axiom` (src/types/mod.rs l.1263-1273). -/
def litAx (l : Lit) : Ax := ⟨l.isNeg, varName l.var⟩
/-- A constraint over the library's variables. -/
def conOf (c : Pigeons.Constr) : Con := ⟨c.sum.map fun t => (t.1, litAx t.2), c.rhs⟩
/-- Operations over the library's variables. -/
def opOf : Pigeons.Op → Op
  | .id n => .id (.abs n)
  | .ax l => .ax (litAx l)
  | .add => .add
  | .mult k => .mult k
  | .div k => .div k
  | .sat => .sat
  | .weak => .weak
/-- Writing a line of the model of proofs as data (`Verif.Model.Pigeons`). -/
def Proof.writeLine (short : Bool) (p : Proof) : Pigeons.Line → Option Proof
  | .pol ops => (p.operations short (ops.map opOf)).map (·.2)
  | .rup c hints => some (p.reverseUnitProp short (conOf c) (hints.map .abs)).2
  | .red c w => (p.redundant short (conOf c) (w.map fun x => ⟨varName x.1, if x.2 then .true_ else .false_⟩) []).map (·.2)
  | .del ids => p.deleteIds short (ids.map .abs) []
/-- Writing several lines. -/
def Proof.writeLines (short : Bool) (p : Proof) : List Pigeons.Line → Option Proof
  | [] => some p
  | l :: ls =>
    match p.writeLine short l with
    | none => none
    | some p => p.writeLines short ls
/-- The file of a proof as data for a formula with `n` constraints, ended with a conclusion. -/
def proofFile (short : Bool) (n : Nat) (p : Pigeons.Proof) (g : Output) (c : Conclusion) : Option Text :=
  match (Proof.new n false).writeLines short p.lines with
  | none => none
  | some q => some (q.conclude g c)

end ProofText
end RustSat
