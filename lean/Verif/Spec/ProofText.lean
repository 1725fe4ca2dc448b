import Verif.Model.ProofText
import Verif.Spec.VeriPb
/-
What the text of a VeriPB proof (version 2.0) says: a reader for it. A file is read line by line, a line word by word;
empty lines and lines beginning with `*` say nothing. Every other line says one `Item`. Blocks (sub-proofs, goals, orders)
are kept flat: a line opens a block, `end` closes it. Nothing here is used by the model that writes proofs.

Then: which ids a checker gives to constraints (`Ids`), what a call of the library is meant to say (`Call.Says`), and a
checker that starts from the text (`checkText`).
-/
namespace RustSat
namespace ProofText
open VeriPb

/-! ### Words -/

/-- A letter. -/
def isLetter (c : Char) : Bool := decide (('a'.toNat ≤ c.toNat ∧ c.toNat ≤ 'z'.toNat) ∨ ('A'.toNat ≤ c.toNat ∧ c.toNat ≤ 'Z'.toNat))
/-- A character of a variable name. -/
def isNameChar (c : Char) : Bool := isLetter c || Text.isDigit c || ['[', ']', '{', '}', '_', '^', '-'].contains c
/-- A variable name: a letter, followed by at least one letter, digit or other permitted character. -/
def isName : Text → Bool
  | c :: d :: t => isLetter c && isNameChar d && t.all isNameChar
  | _ => false
/-- A natural number. -/
def readNum (t : Text) : Option Nat := if t ≠ [] ∧ t.all Text.isDigit = true then some (Text.readNat t) else none
/-- An integer. -/
def readInt : Text → Option Int
  | '-' :: t => (readNum t).map fun n => -(n : Int)
  | t => (readNum t).map fun n => (n : Int)
/-- A positive number. -/
def readPos (t : Text) : Option Nat :=
  match readNum t with
  | some n => if n = 0 then none else some n
  | none => none
/-- A reference to a constraint: a positive number, or a negative one that counts from the end. -/
def readRef : Text → Option CId
  | '-' :: t => (readPos t).map .rel
  | t => (readPos t).map .abs
/-- A literal: a variable, or a negated one. -/
def readLit : Text → Option Ax
  | '~' :: t => if isName t then some ⟨true, t⟩ else none
  | t => if isName t then some ⟨false, t⟩ else none
/-- What a variable is replaced with. -/
def readWith (t : Text) : Option With := if t = ['1'] then some .true_ else if t = ['0'] then some .false_ else (readLit t).map .lit
/-- A goal of a sub-proof. -/
def readGoalId : Text → Option GoalId
  | '#' :: t => (readPos t).map .specific
  | t => (readRef t).map .constr

/-! ### Parts of lines -/

/-- Reading all words. -/
def readAll (f : Text → Option α) : List Text → Option (List α)
  | [] => some []
  | t :: ts =>
    match f t, readAll f ts with
    | some a, some as => some (a :: as)
    | _, _ => none
/-- References up to the first word that is none. -/
def takeRefs : List Text → List CId × List Text
  | [] => ([], [])
  | t :: ts =>
    match readRef t with
    | some r => (r :: (takeRefs ts).1, (takeRefs ts).2)
    | none => ([], t :: ts)
/-- Coefficients and literals as far as there are any. -/
def readTerms : List Text → List (Int × Ax) × List Text
  | k :: l :: ts =>
    match readInt k, readLit l with
    | some k', some l' => ((k', l') :: (readTerms ts).1, (readTerms ts).2)
    | _, _ => ([], k :: l :: ts)
  | ts => ([], ts)
/-- A constraint, ended by a semicolon, and what follows. -/
def readCon (ts : List Text) : Option (Con × List Text) :=
  match readTerms ts with
  | (sum, g :: r :: e :: rest) =>
    if g = ['>', '='] ∧ e = [';'] then
      match readInt r with
      | some r => some (⟨sum, r⟩, rest)
      | none => none
    else none
  | _ => none
/-- An objective: terms and possibly a constant, ended by a semicolon, and what follows. -/
def readObj (ts : List Text) : Option (Obj × List Text) :=
  match readTerms ts with
  | (sum, e :: rest) =>
    if e = [';'] then some (⟨sum, 0⟩, rest)
    else
      match rest with
      | e' :: rest' =>
        if e' = [';'] then
          match readInt e with
          | some k => some (⟨sum, k⟩, rest')
          | none => none
        else none
      | [] => none
  | _ => none
/-- Substitutions `variable -> value` as far as there are any. -/
def readSubs : List Text → List Sub × List Text
  | v :: a :: x :: ts =>
    if isName v = true ∧ a = ['-', '>'] then
      match readWith x with
      | some w => (⟨v, w⟩ :: (readSubs ts).1, (readSubs ts).2)
      | none => ([], v :: a :: x :: ts)
    else ([], v :: a :: x :: ts)
  | ts => ([], ts)
/-- An operation that is a single word. -/
def readOp (t : Text) : Option Op :=
  if t = ['+'] then some .add
  else if t = ['s'] then some .sat
  else if t = ['w'] then some .weak
  else
    match readRef t with
    | some r => some (.id r)
    | none => (readLit t).map .ax
/-- Operations in reverse polish notation: a number followed by `*` or `d` multiplies or divides. -/
def readOps : List Text → Option (List Op)
  | [] => some []
  | [t] => (readOp t).map fun o => [o]
  | t :: u :: us =>
    if u = ['*'] then
      match readPos t, readOps us with
      | some k, some os => some (.mult k :: os)
      | _, _ => none
    else if u = ['d'] then
      match readPos t, readOps us with
      | some k, some os => some (.div k :: os)
      | _, _ => none
    else
      match readOp t, readOps (u :: us) with
      | some o, some os => some (o :: os)
      | _, _ => none
/-- A variable name. -/
def readName (t : Text) : Option Text := if isName t then some t else none

/-! ### Lines -/

/-- What a conclusion says: bounds are inclusive. -/
inductive Concl where
  | none
  | sat (sol : Option (List Ax))
  | unsat (id : Option CId)
  | bounds (lo : Int) (lbId : Option CId) (hi : Int) (ubSol : Option (List Ax))
deriving DecidableEq, Repr

/-- What a line says. The flag of a step tells whether a sub-proof begins. -/
inductive Item where
  | header
  | formula (n : Nat)
  | pol (ops : List Op)
  | rup (c : Con) (hints : List CId)
  | red (c : Con) (subs : List Sub) (begins : Bool)
  | dom (c : Con) (subs : List Sub) (begins : Bool)
  | delId (ids : List CId) (begins : Bool)
  | delSpec (c : Con)
  | delRange (a b : CId)
  | delc (ids : List CId)
  | deld (ids : List CId)
  | coreId (ids : List CId)
  | coreRange (a b : CId)
  | objNew (o : Obj) (begins : Bool)
  | objDiff (o : Obj)
  | objEq (o : Obj)
  | sol (lits : List Ax)
  | solx (lits : List Ax)
  | soli (lits : List Ax)
  | equal (c : Con) (id : Option CId)
  | equalAdd (c : Con) (id : Option CId)
  | implied (c : Con) (id : Option CId)
  | impliedAdd (c : Con) (id : Option CId)
  | level (n : Nat)
  | wipe (n : Nat)
  | goal (id : GoalId)
  | qed (id : Option CId)
  | endBlock
  | loadOrder (name : Text) (vars : List Text)
  | strengthening (on : Bool)
  | defOrder (name : Text)
  | vars
  | left (vars : List Text)
  | right (vars : List Text)
  | aux (vars : List Text)
  | freshRight (vars : List Text)
  | definition
  | con (c : Con)
  | transitivity
  | reflexivity
  | proof
  | output (g : Output)
  | conclusion (c : Concl)
  | endProof
deriving DecidableEq, Repr

/-- The first words of lines. -/
inductive Kw where
  | header | f | pol | rup | red | dom | del | delc | deld | core | obju | eobj | sol | solx | soli | e | ea | i | ia | level | wipe
  | proofgoal | qed | end_ | loadOrder | strengthening | defOrder | vars | left | right | aux | freshRight | def_ | transitivity
  | reflexivity | proof | output | conclusion
deriving DecidableEq, Repr

/-- The keywords. -/
def keywords : List (Text × Kw) :=
  [("pseudo-Boolean".toList, .header), ("f".toList, .f), ("pol".toList, .pol), ("p".toList, .pol), ("rup".toList, .rup),
   ("u".toList, .rup), ("red".toList, .red), ("dom".toList, .dom), ("del".toList, .del), ("delc".toList, .delc),
   ("deld".toList, .deld), ("core".toList, .core), ("obju".toList, .obju), ("eobj".toList, .eobj), ("sol".toList, .sol),
   ("solx".toList, .solx), ("soli".toList, .soli), ("e".toList, .e), ("ea".toList, .ea), ("i".toList, .i), ("ia".toList, .ia),
   ("#".toList, .level), ("w".toList, .wipe), ("proofgoal".toList, .proofgoal), ("qed".toList, .qed), ("end".toList, .end_),
   ("load_order".toList, .loadOrder), ("strengthening_to_core".toList, .strengthening), ("def_order".toList, .defOrder),
   ("vars".toList, .vars), ("left".toList, .left), ("right".toList, .right), ("aux".toList, .aux),
   ("fresh_right".toList, .freshRight), ("def".toList, .def_), ("transitivity".toList, .transitivity),
   ("reflexivity".toList, .reflexivity), ("proof".toList, .proof), ("output".toList, .output),
   ("conclusion".toList, .conclusion)]

/-- The meaning of a first word. -/
def keyword (t : Text) : Option Kw := keywords.lookup t

/-- A number and nothing else. -/
def oneNum (ts : List Text) : Option Nat := match ts with | [t] => readNum t | _ => none
/-- Two references and nothing else. -/
def twoRefs (ts : List Text) : Option (CId × CId) :=
  match ts with
  | [a, b] => match readRef a, readRef b with | some a, some b => some (a, b) | _, _ => none
  | _ => none
/-- A constraint and possibly a reference. -/
def conRef (ts : List Text) : Option (Con × Option CId) :=
  match readCon ts with
  | some (c, []) => some (c, none)
  | some (c, [r]) => match readRef r with | some r => some (c, some r) | none => none
  | _ => none
/-- A constraint and substitutions, and whether a sub-proof begins. -/
def conSubs (ts : List Text) : Option (Con × List Sub × Bool) :=
  match readCon ts with
  | none => none
  | some (c, ts) =>
    if (readSubs ts).2 = [] then some (c, (readSubs ts).1, false)
    else if (readSubs ts).2 = [[';'], "begin".toList] then some (c, (readSubs ts).1, true)
    else none
/-- Ids to delete, possibly none: `ids ;`, or `ids ; substitution ; begin`, where the library only writes empty
substitutions. -/
def delIds (ts : List Text) : Option (List CId × Bool) :=
  if (takeRefs ts).2 = [[';']] then some ((takeRefs ts).1, false)
  else if (takeRefs ts).2 = [[';'], [';'], "begin".toList] then some ((takeRefs ts).1, true)
  else none
/-- The kind of an output. -/
def readOutput (ts : List Text) : Option Output :=
  match ts with
  | [k] => if k = "NONE".toList then some .none else none
  | [k, t] =>
    match if t = "IMPLICIT".toList then some OutType.implicit else if t = "FILE".toList then some .file else none with
    | none => none
    | some t =>
      if k = "DERIVABLE".toList then some (.derivable t)
      else if k = "EQUISATISFIABLE".toList then some (.equisatisfiable t)
      else if k = "EQUIOPTIMAL".toList then some (.equioptimal t)
      else none
  | _ => none
/-- Nothing, or a colon and a solution. -/
def optSol (ts : List Text) : Option (Option (List Ax)) :=
  match ts with
  | [] => some none
  | k :: ts => if k = [':'] then match readAll readLit ts with | some ls => some (some ls) | none => none else none
/-- The upper bound of bounds and its solution. -/
def readUpper (lo : Int) (id : Option CId) (ts : List Text) : Option Concl :=
  match ts with
  | hi :: ts =>
    match readInt hi, optSol ts with
    | some hi, some s => some (.bounds lo id hi s)
    | _, _ => none
  | [] => none
/-- A conclusion. -/
def readConcl (ts : List Text) : Option Concl :=
  match ts with
  | [] => none
  | k :: ts =>
    if k = "NONE".toList then if ts = [] then some .none else none
    else if k = "SAT".toList then match optSol ts with | some s => some (.sat s) | none => none
    else if k = "UNSAT".toList then
      match ts with
      | [] => some (.unsat none)
      | [c, r] => if c = [':'] then match readRef r with | some r => some (.unsat (some r)) | none => none else none
      | _ => none
    else if k = "BOUNDS".toList then
      match ts with
      | lo :: c :: ts =>
        match readInt lo with
        | none => none
        | some lo =>
          if c = [':'] then
            match ts with
            | r :: ts => match readRef r with | some r => readUpper lo (some r) ts | none => none
            | [] => none
          else readUpper lo none (c :: ts)
      | _ => none
    else none

/-- A line without arguments. -/
def bare (i : Item) (ts : List Text) : Option Item := if ts = [] then some i else none

/-- What follows a keyword. -/
def readArgs (kw : Kw) (ts : List Text) : Option Item :=
  match kw with
  | .header => if ts = ["proof".toList, "version".toList, "2.0".toList] then some .header else none
  | .f => (oneNum ts).map .formula
  | .pol => if ts = [] then none else (readOps ts).map .pol
  | .rup =>
    match readCon ts with
    | some (c, rest) => (readAll readRef rest).map fun hs => .rup c hs
    | none => none
  | .red => (conSubs ts).map fun x => .red x.1 x.2.1 x.2.2
  | .dom => (conSubs ts).map fun x => .dom x.1 x.2.1 x.2.2
  | .del =>
    match ts with
    | [] => none
    | k :: ts =>
      if k = "id".toList then (delIds ts).map fun x => .delId x.1 x.2
      else if k = "spec".toList then match readCon ts with | some (c, []) => some (.delSpec c) | _ => none
      else if k = "range".toList then (twoRefs ts).map fun x => .delRange x.1 x.2
      else none
  | .delc => (readAll readRef ts).map .delc
  | .deld => (readAll readRef ts).map .deld
  | .core =>
    match ts with
    | [] => none
    | k :: ts =>
      if k = "id".toList then (readAll readRef ts).map .coreId
      else if k = "range".toList then (twoRefs ts).map fun x => .coreRange x.1 x.2
      else none
  | .obju =>
    match ts with
    | [] => none
    | k :: ts =>
      if k = "new".toList then
        match readObj ts with
        | some (o, []) => some (.objNew o false)
        | some (o, [b]) => if b = "begin".toList then some (.objNew o true) else none
        | _ => none
      else if k = "diff".toList then match readObj ts with | some (o, []) => some (.objDiff o) | _ => none
      else none
  | .eobj => match readObj ts with | some (o, []) => some (.objEq o) | _ => none
  | .sol => (readAll readLit ts).map .sol
  | .solx => (readAll readLit ts).map .solx
  | .soli => (readAll readLit ts).map .soli
  | .e => (conRef ts).map fun x => .equal x.1 x.2
  | .ea => (conRef ts).map fun x => .equalAdd x.1 x.2
  | .i => (conRef ts).map fun x => .implied x.1 x.2
  | .ia => (conRef ts).map fun x => .impliedAdd x.1 x.2
  | .level => (oneNum ts).map .level
  | .wipe => (oneNum ts).map .wipe
  | .proofgoal => match ts with | [g] => (readGoalId g).map .goal | _ => none
  | .qed =>
    match ts with
    | [] => some (.qed none)
    | [r] => (readRef r).map fun r => .qed (some r)
    | _ => none
  | .end_ =>
    if ts = [] then some .endBlock else if ts = ["pseudo-Boolean".toList, "proof".toList] then some .endProof else none
  | .loadOrder => match ts with | n :: vs => (readAll readName vs).map fun vs => .loadOrder n vs | [] => none
  | .strengthening =>
    if ts = ["on".toList] then some (.strengthening true) else if ts = ["off".toList] then some (.strengthening false) else none
  | .defOrder => match ts with | [n] => some (.defOrder n) | _ => none
  | .vars => bare .vars ts
  | .left => (readAll readName ts).map .left
  | .right => (readAll readName ts).map .right
  | .aux => (readAll readName ts).map .aux
  | .freshRight => (readAll readName ts).map .freshRight
  | .def_ => bare .definition ts
  | .transitivity => bare .transitivity ts
  | .reflexivity => bare .reflexivity ts
  | .proof => bare .proof ts
  | .output => (readOutput ts).map .output
  | .conclusion => (readConcl ts).map .conclusion

/-- The words of a line. A line without a keyword is a constraint of the definition of an order. -/
def readLine (ts : List Text) : Option Item :=
  match ts with
  | [] => none
  | k :: rest =>
    match keyword k with
    | some kw => readArgs kw rest
    | none => match readCon ts with | some (c, []) => some (.con c) | _ => none

/-- A line says something: it is not empty and not a comment. -/
def speaks : List Text → Bool
  | [] => false
  | [] :: _ => true
  | (c :: _) :: _ => c != '*'

/-- The items of lines given by their words. -/
def readItems : List (List Text) → Option (List Item)
  | [] => some []
  | ts :: rest =>
    if speaks ts then
      match readLine ts, readItems rest with
      | some i, some is => some (i :: is)
      | _, _ => none
    else readItems rest

/-- What a text says. -/
def readProof (t : Text) : Option (List Item) := readItems ((Text.readLines t).map Text.splitWs)

/-! ### Ids -/

/-- The blocks that `end` closes. -/
inductive Block where
  /-- The sub-proof of a strengthening rule: the constraint itself gets its id at the end. -/
  | strengthening
  /-- Another sub-proof. -/
  | other
  /-- An order or one of its sections, in which nothing gets an id. -/
  | order
deriving DecidableEq, Repr

/-- The next id that a checker gives, and the open blocks. -/
structure Ids where
  next : Nat
  blocks : List Block
deriving DecidableEq, Repr

/-- New constraints get ids outside of orders. -/
def Ids.give (s : Ids) (n : Nat) : Ids := if Block.order ∈ s.blocks then s else { s with next := s.next + n }

/-- The ids that a line takes. In a sub-proof of a rule for a constraint, the negated constraint gets an id first. A goal of
a sub-proof gives an id to its negation. -/
def Ids.step (s : Ids) : Item → Ids
  | .pol _ | .rup _ _ | .solx _ | .soli _ | .equalAdd _ _ | .impliedAdd _ _ => s.give 1
  | .red _ _ false | .dom _ _ false => s.give 1
  | .red _ _ true | .dom _ _ true => { (s.give 1) with blocks := .strengthening :: s.blocks }
  | .delId _ true => { (s.give 1) with blocks := .other :: s.blocks }
  | .objNew _ true => { s with blocks := .other :: s.blocks }
  | .goal _ => s.give 1
  | .defOrder _ | .vars | .definition | .transitivity | .reflexivity => { s with blocks := .order :: s.blocks }
  | .endBlock =>
    match s.blocks with
    | [] => s
    | b :: bs => if b = .strengthening then Ids.give { s with blocks := bs } 1 else { s with blocks := bs }
  | _ => s

/-- The ids of several lines. -/
def Ids.run (s : Ids) (is : List Item) : Ids := is.foldl Ids.step s

/-! ### What calls of the library are meant to say -/

/-- The position that a reference denotes, given the next id. -/
def CId.value (next : Nat) : CId → Int
  | .abs n => n
  | .rel n => next - n

/-- A position is in a range. An unbounded range begins with the first id or ends with the last one. -/
def InRange (next : Nat) (lo hi : Proof.Bound) (i : Int) : Prop :=
  (match lo with | .included b => b.value next ≤ i | .excluded b => b.value next < i | .unbounded => 1 ≤ i) ∧
  (match hi with | .included b => i ≤ b.value next | .excluded b => i < b.value next | .unbounded => i < next)

/-- The positions between two references, excluding the last. -/
def Between (next : Nat) (a b : CId) (i : Int) : Prop := a.value next ≤ i ∧ i < b.value next

/-- The calls of a proof. -/
inductive Call where
  | newProofVar
  | verifyNumConstraints (n : Nat)
  | comment (t : Text)
  | multilineComment (t : Text)
  | updateDefaultConclusion (g : Output) (c : Conclusion)
  | operations (ops : List Op)
  | reverseUnitProp (c : Con) (hints : List CId)
  | deleteIds (ids : List CId) (es : List Element)
  | deleteConstr (c : Con)
  | deleteIdRange (lo hi : Proof.Bound)
  | deleteCoreIds (ids : List CId)
  | deleteDerivedIds (ids : List CId)
  | updateObjective (u : ObjUpdate)
  | substitute (subs : List Sub)
  | redundant (c : Con) (subs : List Sub) (es : List Element)
  | dominated (c : Con) (subs : List Sub) (es : List Element)
  | moveIdsToCore (ids : List CId)
  | moveRangeToCore (lo hi : Proof.Bound)
  | solution (lits : List Ax)
  | excludeSolution (lits : List Ax)
  | improveSolution (lits : List Ax)
  | output (g : Output)
  | equals (c : Con) (id : Option CId)
  | equalsAdd (c : Con) (id : Option CId)
  | objEquals (o : Obj)
  | implied (c : Con) (id : Option CId)
  | impliedAdd (c : Con) (id : Option CId)
  | setLevel (n : Nat)
  | wipeLevel (n : Nat)
  | defineOrder (o : Order)
  | loadOrder (name : Text) (vars : List Text)
  | strengtheningToCore (on : Bool)

/-- A call without a result. -/
def unit? (p : Option Proof) : Option (Option Nat × Proof) := p.map fun p => (none, p)
/-- A call that returns an id. -/
def id? (r : Option (Nat × Proof)) : Option (Option Nat × Proof) := r.map fun r => (some r.1, r.2)

/-- Doing a call: the returned id, if the call returns one, and the proof afterwards; `none` if it panics. -/
def Call.exec (short : Bool) (p : Proof) : Call → Option (Option Nat × Proof)
  | .newProofVar => some (none, p.newProofVar.2)
  | .verifyNumConstraints n => some (none, p.verifyNumConstraints n)
  | .comment t => some (none, p.comment t)
  | .multilineComment t => some (none, p.multilineComment t)
  | .updateDefaultConclusion g c => some (none, p.updateDefaultConclusion g c)
  | .operations ops => id? (p.operations short ops)
  | .reverseUnitProp c hints => id? (some (p.reverseUnitProp short c hints))
  | .deleteIds ids es => unit? (p.deleteIds short ids es)
  | .deleteConstr c => some (none, p.deleteConstr c)
  | .deleteIdRange lo hi => unit? (p.deleteIdRange lo hi)
  | .deleteCoreIds ids => some (none, p.deleteCoreIds ids)
  | .deleteDerivedIds ids => some (none, p.deleteDerivedIds ids)
  | .updateObjective u => unit? (p.updateObjective short u)
  | .substitute subs => some (none, p.substitute subs)
  | .redundant c subs es => id? (p.redundant short c subs es)
  | .dominated c subs es => id? (p.dominated short c subs es)
  | .moveIdsToCore ids => some (none, p.moveIdsToCore ids)
  | .moveRangeToCore lo hi => unit? (p.moveRangeToCore lo hi)
  | .solution lits => some (none, p.solution lits)
  | .excludeSolution lits => id? (some (p.excludeSolution lits))
  | .improveSolution lits => id? (some (p.improveSolution lits))
  | .output g => some (none, p.output g)
  | .equals c id => some (none, p.equals c id)
  | .equalsAdd c id => id? (some (p.equalsAdd c id))
  | .objEquals o => unit? (p.objEquals o)
  | .implied c id => some (none, p.implied c id)
  | .impliedAdd c id => id? (some (p.impliedAdd c id))
  | .setLevel n => some (none, p.setLevel n)
  | .wipeLevel n => some (none, p.wipeLevel n)
  | .defineOrder o => unit? (p.defineOrder short o)
  | .loadOrder name vars => some (none, p.loadOrder name vars)
  | .strengtheningToCore on => some (none, p.strengtheningToCore on)

/-- A derivation. -/
def Deriv.item : Deriv → Item
  | .rup c hints => .rup c hints
  | .ops l => .pol l
/-- A goal: what is derived last closes it. -/
def Goal.items (g : Goal) : List Item := .goal g.id :: (g.derivations.map Deriv.item ++ [.qed (some (.rel 1))])
/-- An element of a sub-proof. -/
def Element.items : Element → List Item
  | .deriv d => [d.item]
  | .goal g => g.items
/-- The rest of a sub-proof after the line that begins it, if there is a sub-proof. -/
def subproofItems (es : List Element) : List Item := if es = [] then [] else es.flatMap Element.items ++ [.endBlock]
/-- The proof of reflexivity of an order, if there is one. -/
def reflItems : Option (List Goal) → List Item
  | none => []
  | some gs => [.reflexivity, .proof] ++ gs.flatMap Goal.items ++ [.qed none, .endBlock]
/-- An order. -/
def Order.items (o : Order) : List Item :=
  [.defOrder o.name, .vars, .left (o.usedVars.map ("u_".toList ++ ·)), .right (o.usedVars.map ("v_".toList ++ ·)), .aux [], .endBlock,
    .definition] ++ o.definition.map .con ++
  [.endBlock, .transitivity, .vars, .freshRight (o.usedVars.map ("w_".toList ++ ·)), .endBlock, .proof] ++
  o.transProof.flatMap Goal.items ++ [.qed none, .endBlock] ++ reflItems o.reflProof ++ [.endBlock]

/-- The lines say what the call is meant to say. -/
def Call.Says (next : Nat) (is : List Item) : Call → Prop
  | .newProofVar | .comment _ | .multilineComment _ | .updateDefaultConclusion _ _ => is = []
  | .verifyNumConstraints n => is = [.formula n]
  | .operations ops => is = [.pol ops]
  | .reverseUnitProp c hints => is = [.rup c hints]
  | .deleteIds ids es => is = .delId ids (decide (es ≠ [])) :: subproofItems es
  | .deleteConstr c => is = [.delSpec c]
  | .deleteIdRange lo hi => ∃ a b, is = [.delRange a b] ∧ ∀ i, Between next a b i ↔ InRange next lo hi i
  | .deleteCoreIds ids => is = [.delc ids]
  | .deleteDerivedIds ids => is = [.deld ids]
  | .updateObjective (.new o gs) => is = .objNew o (decide (gs ≠ [])) :: subproofItems (gs.map .goal)
  | .updateObjective (.diff o) => is = [.objDiff o]
  | .substitute _ => False
  | .redundant c subs es => is = .red c subs (decide (es ≠ [])) :: subproofItems es
  | .dominated c subs es => is = .dom c subs (decide (es ≠ [])) :: subproofItems es
  | .moveIdsToCore ids => is = [.coreId ids]
  | .moveRangeToCore lo hi => ∃ a b, is = [.coreRange a b] ∧ ∀ i, Between next a b i ↔ InRange next lo hi i
  | .solution lits => is = [.sol lits]
  | .excludeSolution lits => is = [.solx lits]
  | .improveSolution lits => is = [.soli lits]
  | .output g => is = [.output g]
  | .equals c id => is = [.equal c id]
  | .equalsAdd c id => is = [.equalAdd c id]
  | .objEquals o => is = [.objEq o]
  | .implied c id => is = [.implied c id]
  | .impliedAdd c id => is = [.impliedAdd c id]
  | .setLevel n => is = [.level n]
  | .wipeLevel n => is = [.wipe n]
  | .defineOrder o => is = o.items
  | .loadOrder name vars => is = [.loadOrder name vars]
  | .strengtheningToCore on => is = [.strengthening on]

/-- A conclusion: a half-open range of bounds is written with an inclusive upper bound. -/
def Conclusion.Says (r : Concl) : Conclusion → Prop
  | .none => r = .none
  | .sat sol => r = .sat sol
  | .unsat id => r = .unsat id
  | .bounds start stop id sol => ∃ lo hi, r = .bounds lo id hi sol ∧ ∀ z, (lo ≤ z ∧ z ≤ hi) ↔ (start ≤ z ∧ z < stop)

/-! ### Well-formed arguments -/

/-- Ids are positive. -/
def CId.Valid : CId → Prop
  | .abs n => 0 < n
  | .rel n => 0 < n
/-- The variable has a name. -/
def Ax.Valid (a : Ax) : Prop := isName a.var = true
/-- All variables have names. -/
def Con.Valid (c : Con) : Prop := ∀ t ∈ c.sum, t.2.Valid
/-- All variables have names. -/
def Obj.Valid (o : Obj) : Prop := ∀ t ∈ o.sum, t.2.Valid
/-- Ids are positive, variables have names, factors are positive. -/
def Op.Valid : Op → Prop
  | .id i => i.Valid
  | .ax a => a.Valid
  | .mult k => 0 < k
  | .div k => 0 < k
  | _ => True
/-- Sequences that are written are not empty. -/
def OpsValid (ops : List Op) : Prop := ops ≠ [] ∧ ∀ o ∈ ops, o.Valid
/-- All variables have names. -/
def Sub.Valid (s : Sub) : Prop := isName s.var = true ∧ ∀ a, s.sub = .lit a → a.Valid
/-- A derivation. -/
def Deriv.Valid : Deriv → Prop
  | .rup c hints => c.Valid ∧ ∀ i ∈ hints, i.Valid
  | .ops l => OpsValid l
/-- The number of a goal is positive. -/
def GoalId.Valid : GoalId → Prop
  | .constr i => i.Valid
  | .specific n => 0 < n
/-- A goal. -/
def Goal.Valid (g : Goal) : Prop := g.id.Valid ∧ ∀ d ∈ g.derivations, d.Valid
/-- An element of a sub-proof. -/
def Element.Valid : Element → Prop
  | .deriv d => d.Valid
  | .goal g => g.Valid
/-- A single word. -/
def Word (t : Text) : Prop := t ≠ [] ∧ ∀ c ∈ t, Text.isWs c = false
/-- An order. -/
def Order.Valid (o : Order) : Prop :=
  Word o.name ∧ (∀ v ∈ o.usedVars, isName v = true) ∧ (∀ c ∈ o.definition, c.Valid) ∧ (∀ g ∈ o.transProof, g.Valid) ∧
  ∀ gs, o.reflProof = some gs → ∀ g ∈ gs, g.Valid
/-- The bound of a range. -/
def Proof.Bound.Valid : Proof.Bound → Prop
  | .included i => i.Valid
  | .excluded i => i.Valid
  | .unbounded => True
/-- A list of ids. -/
def IdsValid (ids : List CId) : Prop := ∀ i ∈ ids, i.Valid
/-- A conclusion. -/
def Conclusion.Valid : Conclusion → Prop
  | .none => True
  | .sat sol => ∀ s, sol = some s → ∀ a ∈ s, a.Valid
  | .unsat id => ∀ i, id = some i → i.Valid
  | .bounds _ _ id sol => (∀ i, id = some i → i.Valid) ∧ ∀ s, sol = some s → ∀ a ∈ s, a.Valid

/-- The arguments of a call are as the documentation requires: sequences of operations are not empty, comments are single
lines, and variables have names. -/
def Call.Valid : Call → Prop
  | .comment t => '\n' ∉ t
  | .updateDefaultConclusion _ c => c.Valid
  | .operations ops => OpsValid ops
  | .reverseUnitProp c hints => c.Valid ∧ ∀ i ∈ hints, i.Valid
  | .deleteIds ids es => IdsValid ids ∧ ∀ e ∈ es, e.Valid
  | .deleteConstr c => c.Valid
  | .deleteIdRange lo hi => lo.Valid ∧ hi.Valid
  | .deleteCoreIds ids => IdsValid ids
  | .deleteDerivedIds ids => IdsValid ids
  | .updateObjective (.new o gs) => o.Valid ∧ ∀ g ∈ gs, g.Valid
  | .updateObjective (.diff o) => o.Valid
  | .substitute subs => ∀ s ∈ subs, s.Valid
  | .redundant c subs es => c.Valid ∧ (∀ s ∈ subs, s.Valid) ∧ ∀ e ∈ es, e.Valid
  | .dominated c subs es => c.Valid ∧ (∀ s ∈ subs, s.Valid) ∧ ∀ e ∈ es, e.Valid
  | .moveIdsToCore ids => IdsValid ids
  | .moveRangeToCore lo hi => lo.Valid ∧ hi.Valid
  | .solution lits => ∀ a ∈ lits, a.Valid
  | .excludeSolution lits => ∀ a ∈ lits, a.Valid
  | .improveSolution lits => ∀ a ∈ lits, a.Valid
  | .equals c id => c.Valid ∧ ∀ i, id = some i → i.Valid
  | .equalsAdd c id => c.Valid ∧ ∀ i, id = some i → i.Valid
  | .objEquals o => o.Valid
  | .implied c id => c.Valid ∧ ∀ i, id = some i → i.Valid
  | .impliedAdd c id => c.Valid ∧ ∀ i, id = some i → i.Valid
  | .defineOrder o => o.Valid
  | .loadOrder name vars => Word name ∧ ∀ v ∈ vars, isName v = true
  | _ => True

/-- The calls that are not covered because the library gets them wrong: objectives with an offset and substitutions. -/
def Call.Covered : Call → Prop
  | .updateObjective (.new o _) => o.offset = 0
  | .updateObjective (.diff o) => o.offset = 0
  | .objEquals o => o.offset = 0
  | .substitute _ => False
  | _ => True

/-- The calls after which the ids are not right: updates of the objective with a sub-proof. -/
def Call.CountsIds : Call → Prop
  | .updateObjective (.new _ gs) => gs = []
  | _ => True

/-- When a call with well-formed arguments panics: a range is empty or begins before the first constraint, or an objective
is needed but the problem has none. -/
def Call.Panics (p : Proof) : Call → Prop
  | .deleteIdRange lo hi | .moveRangeToCore lo hi =>
    ¬ ((∃ i, InRange p.nextId lo hi i) ∧ ∀ i, InRange p.nextId lo hi i → 0 < i)
  | .updateObjective _ | .objEquals _ => p.optimization = false
  | _ => False

/-- The default conclusion after calls: the last one that was set. -/
def lastDefault (d : Output × Conclusion) (cs : List Call) : Output × Conclusion :=
  cs.foldl (fun d c => match c with | .updateDefaultConclusion g c => (g, c) | _ => d) d

/-- Histories: the calls and the proof after them. -/
inductive Reaches (short : Bool) (p : Proof) : List Call → Proof → Prop where
  | start : Reaches short p [] p
  | call {cs q c r q'} : Reaches short p cs q → c.Valid → c.Covered → c.exec short q = some (r, q') →
      Reaches short p (cs ++ [c]) q'

/-- The lines say, one after another, what the calls are meant to say, where each call sees the ids before it. -/
inductive SayAll : Ids → List Call → List Item → Prop where
  | nil {s} : SayAll s [] []
  | snoc {s cs is c js} : SayAll s cs is → c.Says (s.run is).next js → SayAll s (cs ++ [c]) (is ++ js)

/-- Orders built with the library's functions: with the constraints of the definition, each with the derivations of its goals,
and the variables that were used. -/
inductive Order.Built (name : Text) : List (Con × List Deriv × Option (List Deriv)) → List Text → Order → Prop where
  | new : Order.Built name [] [] (Order.new name)
  | use {ds vs o} (v : Text) : Order.Built name ds vs o → Order.Built name ds (vs ++ [v]) (o.useVar v).2
  | add {ds vs o} (c : Con) (trans : List Deriv) (refl : Option (List Deriv)) : Order.Built name ds vs o →
      Order.Built name (ds ++ [(c, trans, refl)]) vs (o.addDefinition c trans refl)

/-! ### A checker that starts from the text -/

/-- A variable of the library: `x` and its number, counted from one. -/
def readVar : Text → Option Nat
  | 'x' :: t => match readPos t with | some n => some (n - 1) | none => none
  | _ => none
/-- A literal. -/
def asLit (a : Ax) : Option Lit := (readVar a.var).map fun v => if a.neg then Lit.negOf v else Lit.pos v
/-- The absolute id. -/
def asId : CId → Option Nat
  | .abs n => some n
  | .rel _ => none
/-- Converting every element. -/
def asAll (f : α → Option β) : List α → Option (List β)
  | [] => some []
  | a :: as => match f a, asAll f as with | some b, some bs => some (b :: bs) | _, _ => none
/-- A constraint. -/
def asConstr (c : Con) : Option Pigeons.Constr :=
  (asAll (fun t : Int × Ax => (asLit t.2).map fun l => (t.1, l)) c.sum).map fun s => ⟨s, c.rhs⟩
/-- An operation. -/
def asOp : Op → Option Pigeons.Op
  | .id i => (asId i).map .id
  | .ax a => (asLit a).map .ax
  | .add => some .add
  | .mult k => some (.mult k)
  | .div k => some (.div k)
  | .sat => some .sat
  | .weak => some .weak
/-- A substitution by a value. -/
def asSub (s : Sub) : Option (Nat × Bool) :=
  match readVar s.var, s.sub with
  | some v, .true_ => some (v, true)
  | some v, .false_ => some (v, false)
  | _, _ => none
/-- The lines that `VeriPb.step` checks. -/
def Item.asLine : Item → Option Pigeons.Line
  | .pol ops => (asAll asOp ops).map .pol
  | .rup c hints => match asConstr c, asAll asId hints with | some c, some hs => some (.rup c hs) | _, _ => none
  | .red c subs false => match asConstr c, asAll asSub subs with | some c, some w => some (.red c w) | _, _ => none
  | .delId ids false => (asAll asId ids).map .del
  | _ => none
/-- A constraint that no assignment satisfies. -/
def contradictory (d : Ineq) : Bool := decide (d.maxSlack [] < 0)
/-- A conclusion is justified; only `NONE` and `UNSAT` are covered. -/
def concludes (s : State) : Concl → Bool
  | .none => true
  | .unsat (some (.abs id)) => match s.get id with | some d => contradictory d | none => false
  | .unsat none => s.constrs.any contradictory
  | _ => false
/-- Checking the lines after the header up to the end. -/
def checkItems (s : State) : List Item → Option (State × Concl)
  | [] => none
  | [.output .none, .conclusion c, .endProof] => if concludes s c then some (s, c) else none
  | i :: is =>
    match i.asLine with
    | none => none
    | some l =>
      match step s l with
      | none => none
      | some s => checkItems s is
/-- Checking the text of a proof for a formula. -/
def checkText (f : List Pigeons.Constr) (t : Text) : Option (State × Concl) :=
  match readProof t with
  | some (.header :: .formula n :: is) => if n = f.length then checkItems (start f) is else none
  | _ => none

end ProofText
end RustSat
