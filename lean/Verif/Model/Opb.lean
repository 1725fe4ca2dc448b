import Verif.Model.Dimacs

/-
Model of `src/instances/fio/opb.rs` (parser and writers for the OPB format) and of the functions building instances
from it in `src/instances/{sat,opt,multiopt}.rs`.

The reader is modelled as its text. All users of the parser iterator stop at its first error, so the iterator is
modelled as the list of its results up to and including the first one that is not a datum.
-/

namespace RustSat

/-- `isize::MIN`. -/
def isizeMin : Int := -9223372036854775808

namespace Opb

open P

/-- `Options` (opb.rs l.127-134). -/
structure Options where
  firstVarIdx : Nat
  noNegatedLits : Bool
deriving DecidableEq, Repr

/-- `Options::default` (opb.rs l.136-144). -/
def Options.dflt : Options := ⟨1, true⟩

/-- `OpbOperator` (opb.rs l.148-159). -/
inductive Op where
  | le | ge | lt | gt | eq
deriving DecidableEq, Repr

/-- `ObjectiveSense` (opb.rs l.197-202). -/
inductive Sense where
  | minimize | maximize
deriving DecidableEq, Repr

/-- `Objective` (opb.rs l.171-179). -/
structure Obj where
  sense : Sense
  terms : List (Nat × Lit)
  offset : Int
deriving DecidableEq, Repr

/-- `Data` (opb.rs l.248-257). -/
inductive Data where
  | cmt (t : Text)
  | constr (c : PbConstraint)
  | obj (o : Obj)
deriving DecidableEq, Repr

/-- `comment` (opb.rs l.271-275). -/
def comment : P Text :=
  Dimacs.taken (seqP (char '*') fun _ => seqP tillLineEnding fun _ => opt lineEnding)

/-- The digits of a variable index (opb.rs l.302-304), parsed as `u32` (l.306). -/
def varIdx : P Nat :=
  tryMap (fun ds => if Text.readNat ds ≤ u32Max then some (Text.readNat ds) else none)
    (seqP (char 'x') fun _ =>
      alt (seqP (sat Text.isDigit19) fun c => map (fun r => c :: r) digit0) (map (fun _ => ['0']) (char '0')))

/-- `VarParser::parse_next` (opb.rs l.299-315). `Var::new` panics on indices it cannot represent. -/
def var (opts : Options) : P Nat := fun s =>
  match varIdx s with
  | .ok idx r =>
    if idx < opts.firstVarIdx then .back
    else
      match Var.new (idx - opts.firstVarIdx) with
      | .ok v => .ok v r
      | _ => .panic
  | .back => .back
  | .cut => .cut
  | .panic => .panic

/-- `literal` (opb.rs l.325-328). -/
def literal (opts : Options) : P Lit :=
  seqP (opt (alt (char '~') (char '-'))) fun neg => map (fun v => Lit.mk' v neg.isSome) (var opts)

/-- `operator` (opb.rs l.343-352). -/
def operator : P Op :=
  alt (map (fun _ => .le) (tag ['<', '='])) (alt (map (fun _ => .ge) (tag ['>', '=']))
    (alt (map (fun _ => .lt) (tag ['<'])) (alt (map (fun _ => .gt) (tag ['>'])) (map (fun _ => .eq) (tag ['='])))))

/-- `coeff` (opb.rs l.355-359). -/
def coeff : P Int := decInt isizeMin isizeMax

/-- `term` (opb.rs l.362-364). -/
def term (opts : Options) : P (Lit × Int) :=
  seqP coeff fun c => seqP space1 fun _ => map (fun l => (l, c)) (literal opts)

/-- `term_sum` (opb.rs l.367-372), collecting a list. -/
def termSum (opts : Options) : P (List (Lit × Int)) := separated0 (term opts) space1

/-- `ending` (opb.rs l.375-384), without the consumed text. -/
def ending : P Unit :=
  seqP space0 fun _ => seqP (opt (char ';')) fun semi => seqP space0 fun _ =>
  seqP (opt (alt eof (seqP lineEnding fun _ => space0))) fun eol =>
  if semi.isSome || eol.isSome then retP () else fail

/-- The constraint for a sum, an operator and a bound (opb.rs l.389-395); `none` is the overflow of `b + 1`. -/
def mkConstr (sum : List (Lit × Int)) (op : Op) (b : Int) : Option PbConstraint :=
  match op with
  | .le => some (PbConstraint.newUb sum b)
  | .ge => some (PbConstraint.newLb sum b)
  | .lt => if b < isizeMax then some (PbConstraint.newUb sum (b + 1)) else none
  | .gt => if b < isizeMax then some (PbConstraint.newLb sum (b + 1)) else none
  | .eq => some (PbConstraint.newEq sum b)

/-- A step of a parser that may panic. -/
def orPanic {α : Type} : Option α → P α
  | some a => retP a
  | none => fun _ => .panic

/-- `constraint` (opb.rs l.387-397). -/
def constraint (opts : Options) : P PbConstraint :=
  seqP (termSum opts) fun sum => seqP space0 fun _ => seqP operator fun op => seqP space0 fun _ =>
  seqP (cutErr coeff) fun b => seqP ending fun _ => orPanic (mkConstr sum op b)

/-- `ObjectiveSum::accumulate` for every term, from the first to the last (opb.rs l.232-240). -/
def accumulate : List (Nat × Lit) → Int → List (Lit × Int) → Option (List (Nat × Lit) × Int)
  | ts, off, [] => some (ts, off)
  | ts, off, (l, c) :: rest =>
    if 0 < c then accumulate (ts ++ [(c.natAbs, l)]) off rest
    else if isizeMin ≤ off + c then accumulate (ts ++ [(c.natAbs, l.neg)]) (off + c) rest
    else none

/-- `"min:"` or `"max:"` (opb.rs l.402). -/
def sense : P Sense :=
  alt (map (fun _ => .minimize) (tag ['m', 'i', 'n', ':'])) (map (fun _ => .maximize) (tag ['m', 'a', 'x', ':']))

/-- `objective` (opb.rs l.401-405). -/
def objective (opts : Options) : P Obj :=
  seqP sense fun se => seqP space0 fun _ => seqP (cutErr (termSum opts)) fun sum =>
  seqP (orPanic (accumulate [] 0 sum)) fun acc => seqP (cutErr ending) fun _ => retP ⟨se, acc.1, acc.2⟩

/-- `opb_data` (opb.rs l.408-425). -/
def data (opts : Options) : P Data :=
  seqP space0 fun _ =>
  alt (map .cmt comment) (alt (map .constr (constraint opts)) (map .obj (objective opts)))

/-- Repeated `Parser::next` (opb.rs l.88-112) on the unprocessed part of one line. The first argument bounds the
number of iterations; the length of the text is always enough since every datum consumes a character. The second
component tells whether parsing continues with the next line. -/
def lineItems (opts : Options) : Nat → Text → List (Res FioError Data) × Bool
  | _, [] => ([], true)
  | 0, _ => ([], true)
  | f + 1, s =>
    match data opts s with
    | .ok d r => ((.ok d) :: (lineItems opts f r).1, (lineItems opts f r).2)
    | .panic => ([.panic], false)
    | _ => ([.err .parsing], false)

/-- The results of `Parser` on a list of lines. -/
def linesItems (opts : Options) : List Text → List (Res FioError Data)
  | [] => []
  | l :: ls =>
    let r := lineItems opts l.length (Text.trimStart l)
    if r.2 then r.1 ++ linesItems opts ls else r.1

/-- All results of `Parser` (opb.rs l.53-112) on a text, up to the first error. -/
def items (opts : Options) (s : Text) : List (Res FioError Data) := linesItems opts (Text.readLines s)

/-! ### Writers -/

open Dimacs (writeAll andThen unlines)

/-- An `isize` result of an arithmetic operation; `none` is the overflow panic. -/
def isize (i : Int) : Option Int := if isizeMin ≤ i ∧ i ≤ isizeMax then some i else none

/-- `"x{}"` with `l.vidx32() + opts.first_var_idx`; `none` is the overflow panic. -/
def varText (opts : Options) (v : Nat) : Option Text :=
  if v + opts.firstVarIdx ≤ u32Max then some ('x' :: Text.showNat (v + opts.firstVarIdx)) else none

/-- `"{} x{} "`. -/
def posTerm (opts : Options) (w : Int) (v : Nat) : Option Text :=
  match varText opts v with
  | some t => some (Text.showInt w ++ ' ' :: t ++ [' '])
  | none => none

/-- `"{} ~x{} "`. -/
def negTerm (opts : Options) (w : Int) (v : Nat) : Option Text :=
  match varText opts v with
  | some t => some (Text.showInt w ++ ' ' :: '~' :: t ++ [' '])
  | none => none

/-- A term written without negated literals: the coefficient of a negative literal is negated. -/
def termNoNeg (opts : Options) (p : Lit × Nat) : Option Text :=
  if p.1.isPos then posTerm opts p.2 p.1.var
  else if p.2 ≤ isizeMax then posTerm opts (-(p.2 : Int)) p.1.var else none

/-- A term written with negated literals. -/
def termNeg (opts : Options) (p : Lit × Nat) : Option Text :=
  if p.1.isPos then posTerm opts p.2 p.1.var else negTerm opts p.2 p.1.var

/-- The weight of the negative literals, by which the right-hand side is decreased. -/
def negOffset : List (Lit × Nat) → Nat
  | [] => 0
  | (l, w) :: rest => if l.isPos then negOffset rest else w + negOffset rest

/-- `writeln!(writer, "{op} {bound};")`. -/
def rhsText (op : Text) : Option Int → Option Text
  | some b => some (op ++ ' ' :: Text.showInt b ++ [';', '\n'])
  | none => none

/-- The part common to `write_clause`, `write_card` and `write_pb`: the terms, the operator and the bound
(opb.rs l.664-688, l.741-751, l.783-791, l.842-854, l.885-893). -/
def writeSum (opts : Options) (op : Text) (ls : List (Lit × Nat)) (b : Int) : Option Text :=
  if opts.noNegatedLits then
    andThen (writeAll (termNoNeg opts) ls)
      (if negOffset ls ≤ isizeMax then rhsText op (isize (b - negOffset ls)) else none)
  else andThen (writeAll (termNeg opts) ls) (rhsText op (some b))

/-- Literals with weight one. -/
def units (c : List Lit) : List (Lit × Nat) := c.map fun l => (l, 1)

/-- `write_clause` (opb.rs l.655-690). -/
def writeClause (opts : Options) (c : Clause) : Option Text := writeSum opts ['>', '='] (units c) 1

/-- `isize::try_from(usize)`. -/
def toIsize (n : Nat) : Option Int := if n ≤ isizeMax then some n else none

/-- A written sum whose bound may have panicked. -/
def writeSum? (opts : Options) (op : Text) (ls : List (Lit × Nat)) : Option Int → Option Text
  | some b => writeSum opts op ls b
  | none => none

/-- The subtraction of the bound for an upper bound constraint. -/
def subIsize : Option Int → Option Int → Option Int
  | some a, some b => isize (a - b)
  | _, _ => none

/-- `write_card` (opb.rs l.701-793): upper bounds are flipped by negating the literals. -/
def writeCard (opts : Options) : CardConstraint → Option Text
  | .ub ls b => writeSum? opts ['>', '='] (units (ls.map Lit.neg)) (subIsize (toIsize ls.length) (toIsize b))
  | .lb ls b => writeSum? opts ['>', '='] (units ls) (toIsize b)
  | .eq ls b => writeSum? opts ['='] (units ls) (toIsize b)

/-- `write_pb` (opb.rs l.803-895). -/
def writePb (opts : Options) : PbConstraint → Option Text
  | .ub ls _ b =>
    writeSum? opts ['>', '='] (ls.map fun p => (p.1.neg, p.2)) (subIsize (toIsize (ls.map Prod.snd).sum) (some b))
  | .lb ls _ b => writeSum? opts ['>', '='] ls (some b)
  | .eq ls _ b => writeSum? opts ['='] ls (some b)

/-- `" {w} x{}"`. -/
def objPos (opts : Options) (w : Int) (v : Nat) : Option Text :=
  match varText opts v with
  | some t => some (' ' :: Text.showInt w ++ ' ' :: t)
  | none => none

/-- `" {w} ~x{}"`. -/
def objNeg (opts : Options) (w : Int) (v : Nat) : Option Text :=
  match varText opts v with
  | some t => some (' ' :: Text.showInt w ++ ' ' :: '~' :: t)
  | none => none

/-- A term of an objective (opb.rs l.911-933). -/
def objTerm (opts : Options) (p : Lit × Nat) : Option Text :=
  if opts.noNegatedLits then
    if p.2 ≤ isizeMax then
      if p.1.isNeg then objPos opts (-(p.2 : Int)) p.1.var else objPos opts p.2 p.1.var
    else none
  else if p.1.isPos then objPos opts p.2 p.1.var else objNeg opts p.2 p.1.var

/-- The offset comment (opb.rs l.935-941). -/
def offsetText : Option Int → Option Text
  | some off =>
    if off ≠ 0 then some ("* objective offset for previous objective: ".toList ++ Text.showInt off ++ ['\n']) else some []
  | none => none

/-- `write_objective` (opb.rs l.903-943). The check for an overflow of the offset is made once, after all terms;
since all weights have the same sign this is the same as checking after every term. -/
def writeObjective (opts : Options) (ls : List (Lit × Nat)) (offset : Int) : Option Text :=
  Dimacs.prefixed "min:".toList
    (andThen (writeAll (objTerm opts) ls)
      (Dimacs.prefixed [';', '\n']
        (offsetText (if opts.noNegatedLits then isize (offset + negOffset ls) else some offset))))

/-- `FileLine` (opb.rs l.447-461). -/
inductive FileLine where
  | comment (t : Text)
  | clause (c : Clause)
  | card (c : CardConstraint)
  | pb (c : PbConstraint)
  | objective (o : List (Lit × Nat))
deriving DecidableEq, Repr

/-- One step of `write_opb_lines` (opb.rs l.490-498). -/
def writeLine (opts : Options) : FileLine → Option Text
  | .comment c => some ('*' :: ' ' :: c ++ ['\n'])
  | .clause c => writeClause opts c
  | .card c => writeCard opts c
  | .pb c => writePb opts c
  | .objective o => writeObjective opts o 0

/-- `write_opb_lines` (opb.rs l.484-500). -/
def writeLines (opts : Options) (ls : List FileLine) : Option Text := writeAll (writeLine opts) ls

/-- `writeln!(writer, "* maximum variable: {max_var}")`; variables are displayed as `x{idx}` (types/mod.rs l.211). -/
def maxVarText : Option Nat → List Text
  | some v => ["* maximum variable: x".toList ++ Text.showNat v]
  | none => []

end Opb

variable {VM : Type} [ManageVars VM]
open Opb Dimacs

/-- The clauses, cardinality constraints and pseudo-Boolean constraints of an instance. -/
def SatInstance.opbBody (s : SatInstance VM) (opts : Options) : Option Text :=
  andThen (writeAll (Opb.writeClause opts) s.cnf)
    (andThen (writeAll (writeCard opts) s.cards) (writeAll (writePb opts) s.pbs))

/-- The comment block of `write_sat` (opb.rs l.523-534), `write_opt` (l.574-586) and `write_multi_opt` (l.628-642). -/
def SatInstance.opbPreamble (s : SatInstance VM) (clauseWord : Text) : List Text :=
  ["* #variable = ".toList ++ Text.showNat (ManageVars.nUsed s.vm) ++ " #constraint= ".toList ++
      Text.showNat (s.cnf.length + s.cards.length + s.pbs.length),
   "* OPB file written by RustSAT".toList] ++
  maxVarText (ManageVars.maxVar s.vm) ++
  ["* ".toList ++ Text.showNat s.cnf.length ++ clauseWord,
   "* ".toList ++ Text.showNat s.cards.length ++ " cardinality constraints".toList,
   "* ".toList ++ Text.showNat s.pbs.length ++ " pseudo-boolean constraints".toList]

/-- `SatInstance::write_opb` (sat.rs l.850-856), `write_sat` (opb.rs l.513-546). -/
def SatInstance.writeOpb (s : SatInstance VM) (opts : Options) : Option Text :=
  prefixed (unlines (s.opbPreamble " clauses".toList)) (s.opbBody opts)

/-- `SatInstance::from_opb` (sat.rs l.1055-1073), the loop over the results of the parser. -/
def SatInstance.opbLoop (s : SatInstance VM) : List (Res FioError Data) → Res FioError (SatInstance VM)
  | [] => .ok s
  | .ok (.cmt _) :: rest => s.opbLoop rest
  | .ok (.constr c) :: rest => (s.addPb c).opbLoop rest
  | .ok (.obj _) :: _ => .err .objInSat
  | .err e :: _ => .err e
  | .panic :: _ => .panic

/-- `SatInstance::from_opb` (sat.rs l.1055-1073); `dflt` is the default variable manager. -/
def SatInstance.fromOpb (dflt : VM) (opts : Options) (t : Text) : Res FioError (SatInstance VM) :=
  SatInstance.opbLoop { cnf := [], cards := [], pbs := [], vm := dflt } (items opts t)

/-- Errors of `write_opb` (src/instances.rs, `WriteOpbError`), without I/O errors. -/
inductive WriteOpbError where
  | requiresSoftLits
deriving DecidableEq, Repr

/-- `Objective::iter_soft_lits` (opt.rs l.1068-1082). -/
def Objective.iterSoftLits (o : Objective) : Option (List (Lit × Nat)) :=
  if o.nClauses > 0 then none
  else
    match o with
    | .weighted _ sl _ => some sl
    | .unweighted _ u sl _ => some (sl.map fun l => (l, u.getD 0))

/-- A written text as a result: `none` is a panic. -/
def writtenOpb : Option Text → Res WriteOpbError Text
  | some t => .ok t
  | none => .panic

/-- `OptInstance::write_opb` (opt.rs l.1452-1465), `write_opt` (opb.rs l.559-600). -/
def OptInstance.writeOpb (i : OptInstance VM) (opts : Options) : Res WriteOpbError Text :=
  match i.obj.iterSoftLits with
  | none => .err .requiresSoftLits
  | some ls => writtenOpb (prefixed (unlines (i.constrs.opbPreamble " original hard clauses".toList))
      (andThen (writeObjective opts ls i.obj.offset) (i.constrs.opbBody opts)))

/-- Collecting the soft literals and offsets of all objectives (multiopt.rs l.328-335). -/
def MultiOptInstance.softLits : List Objective → Option (List (List (Lit × Nat) × Int))
  | [] => some []
  | o :: os =>
    match o.iterSoftLits, MultiOptInstance.softLits os with
    | some ls, some r => some ((ls, o.offset) :: r)
    | _, _ => none

/-- `MultiOptInstance::write_opb` (multiopt.rs l.323-343), `write_multi_opt` (opb.rs l.613-654). -/
def MultiOptInstance.writeOpb (i : MultiOptInstance VM) (opts : Options) : Res WriteOpbError Text :=
  match MultiOptInstance.softLits i.objs with
  | none => .err .requiresSoftLits
  | some os => writtenOpb (prefixed (unlines (i.constrs.opbPreamble " original hard clauses".toList ++
        ["* ( ) relaxed and hardened soft clauses".toList]))
      (andThen (writeAll (fun o => writeObjective opts o.1 o.2) os) (i.constrs.opbBody opts)))

/-- The objective built from a parsed one (opt.rs l.1598-1619). -/
def Opb.Obj.toObjective (o : Obj) : Res FioError Objective :=
  match o.sense with
  | .minimize => .ok ((Objective.ofLits (o.terms.map fun t => (t.2, t.1))).increaseOffset o.offset)
  | .maximize =>
    if usizeMax < (o.terms.map Prod.fst).sum then .panic
    else if isizeMax < (o.terms.map Prod.fst).sum then .err .objectiveConversionOverflow
    else
      match isize (o.offset - ((o.terms.map Prod.fst).sum : Nat)) with
      | some off => .ok ((Objective.ofLits (o.terms.map fun t => (t.2.neg, t.1))).increaseOffset off)
      | none => .panic

/-- The loop of `OptInstance::from_opb` (opt.rs l.1576-1597) over the results of the parser, and the construction of
the objective after it. -/
def OptInstance.opbLoop (s : SatInstance VM) (obj : Option Obj) : List (Res FioError Data) → Res FioError (OptInstance VM)
  | [] =>
    match obj with
    | none => .err .noObjective
    | some o =>
      match o.toObjective with
      | .ok ob => .ok (OptInstance.compose s ob)
      | .err e => .err e
      | .panic => .panic
  | .ok (.cmt _) :: rest => OptInstance.opbLoop s obj rest
  | .ok (.constr c) :: rest => OptInstance.opbLoop (s.addPb c) obj rest
  | .ok (.obj o) :: rest => if obj.isSome then .err .multipleObjectives else OptInstance.opbLoop s (some o) rest
  | .err e :: _ => .err e
  | .panic :: _ => .panic

/-- `OptInstance::from_opb` (opt.rs l.1571-1621). -/
def OptInstance.fromOpb (dflt : VM) (opts : Options) (t : Text) : Res FioError (OptInstance VM) :=
  OptInstance.opbLoop { cnf := [], cards := [], pbs := [], vm := dflt } none (items opts t)

/-- The loop of `FromIterator<opb::Data> for MultiOptInstance` (multiopt.rs l.486-529), run on the results of the
parser by `MultiOptInstance::from_opb` (multiopt.rs l.441-446). An overflow while converting a maximisation objective
panics here (multiopt.rs l.511-516). -/
def MultiOptInstance.opbLoop (s : SatInstance VM) (objs : List Objective) :
    List (Res FioError Data) → Res FioError (MultiOptInstance VM)
  | [] => .ok ⟨s, objs⟩
  | .ok (.cmt _) :: rest => MultiOptInstance.opbLoop s objs rest
  | .ok (.constr c) :: rest => MultiOptInstance.opbLoop (s.addPb c) objs rest
  | .ok (.obj o) :: rest =>
    match o.toObjective with
    | .ok ob => MultiOptInstance.opbLoop { s with vm := ManageVars.markLits s.vm (o.terms.map Prod.snd) } (objs ++ [ob]) rest
    | _ => .panic
  | .err e :: _ => .err e
  | .panic :: _ => .panic

/-- `MultiOptInstance::from_opb` (multiopt.rs l.441-446). -/
def MultiOptInstance.fromOpb (dflt : VM) (opts : Options) (t : Text) : Res FioError (MultiOptInstance VM) :=
  MultiOptInstance.opbLoop { cnf := [], cards := [], pbs := [], vm := dflt } [] (items opts t)

end RustSat
