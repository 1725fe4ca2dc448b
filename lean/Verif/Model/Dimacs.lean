import Verif.Model.Text
import Verif.Model.Objective

/-
Model of `src/instances/fio/dimacs.rs` (parsers and writers for the DIMACS CNF, WCNF and MCNF formats) and of the
functions building instances from them in `src/instances/{sat,opt,multiopt}.rs`.

The reader is modelled as the list of its lines. A parser iterator stops at the first error in all uses of it, so
a whole body is modelled as `none` (parsing error) or the list of all data.
-/

namespace RustSat

/-- `fio::Error` (src/instances/fio/mod.rs l.19-45) without the contents of parsing errors. -/
inductive FioError where
  | parsing
  | objInSat
  | noObjective
  | multipleObjectives
  | objectiveConversionOverflow
deriving DecidableEq, Repr

namespace Dimacs

open P

/-- `Parser::take` (winnow): the consumed part of the input. -/
def taken {α : Type} (p : P α) : P Text := fun s =>
  match p s with
  | .ok _ r => .ok (s.take (s.length - r.length)) r
  | .back => .back
  | .cut => .cut
  | .panic => .panic

/-- `cnf_p_line` (dimacs.rs l.722-726). -/
def cnfPLine : P (Nat × Nat) :=
  seqP (char 'p') fun _ => seqP space1 fun _ => seqP (cutErr (tag ['c', 'n', 'f'])) fun _ => seqP space1 fun _ =>
  seqP (decUint u32Max) fun nv => seqP space1 fun _ => seqP (decUint usizeMax) fun nc => seqP space0 fun _ =>
  retP (nv, nc)

/-- `wcnf_p_line` (dimacs.rs l.728-733). -/
def wcnfPLine : P (Nat × Nat × Nat) :=
  seqP (char 'p') fun _ => seqP space1 fun _ => seqP (cutErr (tag ['w', 'c', 'n', 'f'])) fun _ => seqP space1 fun _ =>
  seqP (decUint u32Max) fun nv => seqP space1 fun _ => seqP (decUint usizeMax) fun nc => seqP space1 fun _ =>
  seqP (decUint usizeMax) fun top => seqP space0 fun _ =>
  retP (nv, nc, top)

/-- `comment` (dimacs.rs l.736-740). -/
def comment : P Text :=
  taken (seqP (char 'c') fun _ => seqP tillLineEnding fun _ => opt lineEnding)

/-- `lit` (dimacs.rs l.794-799): 0 is a recoverable error. -/
def lit : P Lit :=
  tryMap (fun n => match Lit.fromIpasir n with | .ok l => some l | _ => none) (decInt i32Min i32Max)

/-- `clause_ending` (dimacs.rs l.816-828). -/
def clauseEnding : P Unit :=
  alt (seqP space0 fun _ => alt lineEnding eof)
    (seqP space0 fun _ => seqP (char '0') fun _ => alt (seqP space0 fun _ => alt lineEnding eof) space1)

/-- `clause` (dimacs.rs l.742-746). -/
def clause : P Clause := seqP (separated0 lit space1) fun c => seqP clauseEnding fun _ => retP c

/-- `hard_clause` (dimacs.rs l.748-755). -/
def hardClause : P Clause := seqP (char 'h') fun _ => seqP (cutErr space1) fun _ => cutErr clause

/-- `weight` (dimacs.rs l.774-780). -/
def weight : P Nat := decUint usizeMax

/-- `soft_clause` (dimacs.rs l.757-762). -/
def softClause : P (Nat × Clause) := seqP weight fun w => seqP space1 fun _ => seqP clause fun c => retP (w, c)

/-- `obj_idx` (dimacs.rs l.783-792). -/
def objIdx : P Nat :=
  tryMap (fun ds => if Text.readNat ds ≤ usizeMax then some (Text.readNat ds) else none)
    (seqP (sat Text.isDigit19) fun c => map (fun r => c :: r) digit0)

/-- `mo_soft_clause` (dimacs.rs l.764-770). -/
def moSoftClause : P (Nat × Nat × Clause) :=
  seqP (char 'o') fun _ => seqP space0 fun _ => seqP (cutErr objIdx) fun i => seqP (cutErr space1) fun _ =>
  seqP (cutErr weight) fun w => seqP (cutErr space1) fun _ => seqP (cutErr clause) fun c => retP (i, w, c)

/-- `CnfData` (dimacs.rs l.244-250). -/
inductive CnfData where
  | clause (c : Clause)
  | comment (t : Text)
deriving DecidableEq, Repr

/-- `WcnfData` (dimacs.rs l.535-547). -/
inductive WcnfData where
  | hard (c : Clause)
  | soft (w : Nat) (c : Clause)
  | comment (t : Text)
deriving DecidableEq, Repr

/-- `McnfData` (dimacs.rs l.655-670); the objective index starts at 1. -/
inductive McnfData where
  | hard (c : Clause)
  | soft (idx w : Nat) (c : Clause)
  | comment (t : Text)
deriving DecidableEq, Repr

/-- A body line of a CNF file (dimacs.rs l.270-276). -/
def cnfLine : P CnfData := alt (map .comment comment) (map .clause clause)

/-- A body line of a pre-2022 WCNF file (dimacs.rs l.566-577). -/
def wcnfPre22Line (top : Nat) : P WcnfData :=
  alt (map .comment comment) (map (fun p => if p.1 ≥ top then .hard p.2 else .soft p.1 p.2) softClause)

/-- A body line of a post-2022 WCNF file (dimacs.rs l.620-626). -/
def wcnfPost22Line : P WcnfData :=
  alt (map .comment comment) (alt (map .hard hardClause) (map (fun p => .soft p.1 p.2) softClause))

/-- A body line of an MCNF file (dimacs.rs l.687-697). -/
def mcnfLine : P McnfData :=
  alt (map .comment comment) (alt (map .hard hardClause) (map (fun p => .soft p.1 p.2.1 p.2.2) moSoftClause))

/-- Iterating a body parser to its end (`next`, dimacs.rs l.252-290, l.549-592, l.600-645, l.672-712, with
`read_line` l.74-91 skipping lines that are empty after trimming). `none` is a parsing error. -/
def body {α : Type} (p : P α) : List Text → Option (List α)
  | [] => some []
  | l :: ls =>
    if (Text.trim l).isEmpty then body p ls
    else
      match parse p (Text.trim l) with
      | none => none
      | some a =>
        match body p ls with
        | none => none
        | some as => some (a :: as)

/-- `Parser::<CnfHeader>::forward_to_body` (dimacs.rs l.129-182) on a fresh parser: header data and the remaining
lines. Also the result of iterating over the comments first, which is not modelled separately. -/
def cnfHeader : List Text → Option ((Nat × Nat) × List Text)
  | [] => none
  | l :: ls =>
    if (Text.trim l).isEmpty then cnfHeader ls
    else if Text.startsWith ['c'] (Text.trim l) then cnfHeader ls
    else
      match parse cnfPLine (Text.trim l) with
      | none => none
      | some d => some (d, ls)

/-- `WcnfHeaderData` (dimacs.rs l.293-312), with the remaining lines in place of the body parsers. -/
inductive WcnfHeader where
  | pre22 (nVars nClauses top : Nat) (rest : List Text)
  | post22 (first : WcnfData) (rest : List Text)
  | empty
deriving DecidableEq, Repr

/-- `Parser::<WcnfHeader>::forward_to_body` (dimacs.rs l.363-444) on a fresh parser. -/
def wcnfHeader : List Text → Option WcnfHeader
  | [] => some .empty
  | l :: ls =>
    if (Text.trim l).isEmpty then wcnfHeader ls
    else if Text.startsWith ['c'] (Text.trim l) then wcnfHeader ls
    else
      match parse (alt (map WcnfData.hard hardClause) (map (fun p => WcnfData.soft p.1 p.2) softClause)) (Text.trim l) with
      | some d => some (.post22 d ls)
      | none =>
        match parse wcnfPLine (Text.trim l) with
        | none => none
        | some (nv, nc, top) => some (.pre22 nv nc top ls)

/-- Reading a whole CNF file: header and body (the two steps of sat.rs l.1017-1028). -/
def readCnf (s : Text) : Option (Nat × Nat × List CnfData) :=
  match cnfHeader (Text.readLines s) with
  | none => none
  | some ((nv, nc), ls) =>
    match body cnfLine ls with
    | none => none
    | some ds => some (nv, nc, ds)

/-- The number of variables in the header, if there is one, and the data of a WCNF file (the steps of opt.rs
l.1503-1548). -/
def readWcnf (s : Text) : Option (Option Nat × List WcnfData) :=
  match wcnfHeader (Text.readLines s) with
  | none => none
  | some .empty => some (none, [])
  | some (.pre22 nv _ top ls) =>
    match body (wcnfPre22Line top) ls with
    | none => none
    | some ds => some (some nv, ds)
  | some (.post22 d ls) =>
    match body wcnfPost22Line ls with
    | none => none
    | some ds => some (none, d :: ds)

/-- Reading a whole MCNF file. -/
def readMcnf (s : Text) : Option (List McnfData) := body mcnfLine (Text.readLines s)

/-! ### Writers -/

/-- `try_for_each` writing a piece of text for every element; writing itself does not fail in the model. -/
def writeAll {α : Type} (f : α → Option Text) : List α → Option Text
  | [] => some []
  | x :: xs =>
    match f x, writeAll f xs with
    | some t, some r => some (t ++ r)
    | _, _ => none

/-- `write!(writer, "{} ", n)`; `none` is the panic of `to_ipasir`. -/
def intText : Res Empty Int → Option Text
  | .ok n => some (Text.showInt n ++ [' '])
  | _ => none

/-- The part of `write_clause` (dimacs.rs l.1040-1050) writing the literals. -/
def writeLits (c : Clause) : Option Text := writeAll (fun l => intText l.toIpasir) c

/-- `write_clause` (dimacs.rs l.1040-1050). -/
def writeClause (c : Clause) : Option Text :=
  match writeLits c with
  | some t => some (t ++ ['0', '\n'])
  | none => none

/-- Text put in front of a written line. -/
def prefixed (p : Text) : Option Text → Option Text
  | some t => some (p ++ t)
  | none => none

/-- `write_cnf_annotated` (dimacs.rs l.835-846). -/
def writeCnfAnnotated (f : ClauseSet) (nVars : Nat) : Option Text :=
  prefixed ("c CNF file written by RustSAT\n".toList ++
      ("p cnf ".toList ++ Text.showNat nVars ++ ' ' :: Text.showNat f.length ++ ['\n']))
    (writeAll writeClause f)

/-- `CnfLine` (dimacs.rs l.849-857). -/
inductive CnfLine where
  | header (nVars nClauses : Nat)
  | comment (t : Text)
  | clause (c : Clause)
deriving DecidableEq, Repr

/-- One step of `write_cnf` (dimacs.rs l.878-882). -/
def writeCnfLine : CnfLine → Option Text
  | .header nv nc => some ("p ".toList ++ Text.showNat nv ++ ' ' :: Text.showNat nc ++ ['\n'])
  | .comment c => some ('c' :: ' ' :: c)
  | .clause c => writeClause c

/-- `write_cnf` (dimacs.rs l.874-883). -/
def writeCnf (ls : List CnfLine) : Option Text := writeAll writeCnfLine ls

/-- `write!(writer, "h ")` and `write_clause`. -/
def writeHard (c : Clause) : Option Text := prefixed ['h', ' '] (writeClause c)

/-- `write!(writer, "{w} ")` and `write_clause`. -/
def writeSoft (p : Clause × Nat) : Option Text := prefixed (Text.showNat p.2 ++ [' ']) (writeClause p.1)

/-- The comment block of `write_wcnf_annotated` (dimacs.rs l.899-905). -/
def wcnfPreamble (nHard nSoft : Nat) (offset : Int) (nVars : Option Nat) : List Text :=
  ["c WCNF file written by RustSAT".toList] ++
  (match nVars with | some n => ["c ".toList ++ Text.showNat n ++ " variables".toList] | none => []) ++
  ["c ".toList ++ Text.showNat nHard ++ " hard clauses".toList,
   "c ".toList ++ Text.showNat nSoft ++ " soft clauses".toList,
   "c objective offset: ".toList ++ Text.showInt offset]

/-- `writeln!` of every line. -/
def unlines : List Text → Text
  | [] => []
  | l :: ls => l ++ '\n' :: unlines ls

/-- Two writing steps after each other. -/
def andThen : Option Text → Option Text → Option Text
  | some a, some b => some (a ++ b)
  | _, _ => none

/-- `write_wcnf_annotated` (dimacs.rs l.891-916). -/
def writeWcnfAnnotated (f : ClauseSet) (softs : List (Clause × Nat)) (offset : Int) (nVars : Option Nat) : Option Text :=
  prefixed (unlines (wcnfPreamble f.length softs.length offset nVars))
    (andThen (writeAll writeHard f) (writeAll writeSoft softs))

/-- `WcnfLine` (dimacs.rs l.919-928). -/
inductive WcnfLine where
  | comment (t : Text)
  | hard (c : Clause)
  | soft (c : Clause) (w : Nat)
deriving DecidableEq, Repr

/-- One step of `write_wcnf` (dimacs.rs l.940-950). -/
def writeWcnfLine : WcnfLine → Option Text
  | .comment c => some ('c' :: ' ' :: c)
  | .hard c => writeHard c
  | .soft c w => writeSoft (c, w)

/-- `write_wcnf` (dimacs.rs l.936-951). -/
def writeWcnf (ls : List WcnfLine) : Option Text := writeAll writeWcnfLine ls

/-- `write!(writer, "o {} {} ", idx + 1, w)` and `write_clause`. -/
def writeMoSoft (idx : Nat) (p : Clause × Nat) : Option Text :=
  prefixed ('o' :: ' ' :: Text.showNat (idx + 1) ++ ' ' :: Text.showNat p.2 ++ [' ']) (writeClause p.1)

/-- The numbers written between parentheses, each followed by a space. -/
def spaced : List Text → Text
  | [] => []
  | t :: ts => t ++ ' ' :: spaced ts

/-- The comment block of `write_mcnf_annotated` (dimacs.rs l.972-991). -/
def mcnfPreamble (nHard : Nat) (softs : List (List (Clause × Nat) × Int)) (nVars : Option Nat) : List Text :=
  ["c MCNF file written by RustSAT".toList] ++
  (match nVars with | some n => ["c ".toList ++ Text.showNat n ++ " variables".toList] | none => []) ++
  ["c ".toList ++ Text.showNat nHard ++ " hard clauses".toList,
   "c ".toList ++ Text.showNat softs.length ++ " objectives".toList,
   "c ( ".toList ++ spaced (softs.map fun o => Text.showNat o.1.length) ++ ") soft clauses".toList,
   "c objective offsets: ( ".toList ++ spaced (softs.map fun o => Text.showInt o.2) ++ [')']]

/-- The loop over the objectives, from an index on (dimacs.rs l.996-1004). -/
def writeMoSofts : Nat → List (List (Clause × Nat) × Int) → Option Text
  | _, [] => some []
  | i, o :: os => andThen (writeAll (writeMoSoft i) o.1) (writeMoSofts (i + 1) os)

/-- `write_mcnf_annotated` (dimacs.rs l.958-1006). -/
def writeMcnfAnnotated (f : ClauseSet) (softs : List (List (Clause × Nat) × Int)) (nVars : Option Nat) : Option Text :=
  prefixed (unlines (mcnfPreamble f.length softs nVars)) (andThen (writeAll writeHard f) (writeMoSofts 0 softs))

/-- `McnfLine` (dimacs.rs l.1009-1018); the objective index starts at 0. -/
inductive McnfLine where
  | comment (t : Text)
  | hard (c : Clause)
  | soft (c : Clause) (w idx : Nat)
deriving DecidableEq, Repr

/-- One step of `write_mcnf` (dimacs.rs l.1027-1037). -/
def writeMcnfLine : McnfLine → Option Text
  | .comment c => some ('c' :: ' ' :: c ++ ['\n'])
  | .hard c => writeHard c
  | .soft c w i => writeMoSoft i (c, w)

/-- `write_mcnf` (dimacs.rs l.1023-1038). -/
def writeMcnf (ls : List McnfLine) : Option Text := writeAll writeMcnfLine ls

end Dimacs

/-! ### Building instances -/

variable {VM : Type} [ManageVars VM]

open Dimacs

/-- One step of the loop in `SatInstance::from_dimacs` (sat.rs l.1022-1027). -/
def SatInstance.addCnfData (s : SatInstance VM) : CnfData → SatInstance VM
  | .clause c => s.addClause c
  | .comment _ => s

/-- `SatInstance::from_dimacs` (sat.rs l.1016-1029); `dflt` is the default variable manager. `Var::new` panics on
numbers of variables it cannot represent. -/
def SatInstance.fromDimacs (dflt : VM) (s : Text) : Res FioError (SatInstance VM) :=
  match cnfHeader (Text.readLines s) with
  | none => .err .parsing
  | some ((nv, _), ls) =>
    match Var.new nv with
    | .ok v =>
      match body cnfLine ls with
      | none => .err .parsing
      | some ds => .ok (ds.foldl SatInstance.addCnfData
          { cnf := [], cards := [], pbs := [], vm := (ManageVars.increaseNextFree dflt v).2 })
    | _ => .panic

/-- One step of the loops in `OptInstance::from_dimacs` (opt.rs l.1521-1531, l.1536-1545). -/
def OptInstance.addWcnfData (p : SatInstance VM × Objective) : WcnfData → SatInstance VM × Objective
  | .hard c => (p.1.addClause c, p.2)
  | .soft w c => (p.1, p.2.increaseSoftClause w c)
  | .comment _ => p

/-- `OptInstance::from_dimacs` (opt.rs l.1503-1549). -/
def OptInstance.fromDimacs (dflt : VM) (s : Text) : Res FioError (OptInstance VM) :=
  let finish (p : SatInstance VM × Objective) : OptInstance VM := OptInstance.compose p.1 p.2
  match wcnfHeader (Text.readLines s) with
  | none => .err .parsing
  | some .empty => .ok (finish ({ cnf := [], cards := [], pbs := [], vm := dflt }, Objective.default))
  | some (.pre22 nv _ top ls) =>
    match Var.new nv with
    | .ok v =>
      match body (wcnfPre22Line top) ls with
      | none => .err .parsing
      | some ds => .ok (finish (ds.foldl OptInstance.addWcnfData
          ({ cnf := [], cards := [], pbs := [], vm := (ManageVars.increaseNextFree dflt v).2 }, Objective.default)))
    | _ => .panic
  | some (.post22 d ls) =>
    match body wcnfPost22Line ls with
    | none => .err .parsing
    | some ds => .ok (finish ((d :: ds).foldl OptInstance.addWcnfData
        ({ cnf := [], cards := [], pbs := [], vm := dflt }, Objective.default)))

/-- One step of `FromIterator<WcnfLine> for OptInstance` (opt.rs l.1687-1695); `none` is a panic inside
`add_soft_clause`. -/
def OptInstance.addWcnfLine (i : OptInstance VM) : WcnfLine → Option (OptInstance VM)
  | .comment _ => some i
  | .hard c => some { i with constrs := i.constrs.addClause c }
  | .soft c w =>
    match i.obj.addSoftClause w c with
    | some (_, o) => some { i with obj := o }
    | none => none

/-- `FromIterator<WcnfLine> for OptInstance` (opt.rs l.1684-1698). -/
def OptInstance.ofWcnfLines (dflt : VM) (ls : List WcnfLine) : Option (OptInstance VM) :=
  SatInstance.forLoop OptInstance.addWcnfLine
    ⟨{ cnf := [], cards := [], pbs := [], vm := dflt }, Objective.default⟩ ls

/-- `objs.resize(n, Objective::new())` where it can only grow (multiopt.rs l.407, l.473). -/
def growObjs (os : List Objective) (n : Nat) : List Objective :=
  if n > os.length then os ++ List.replicate (n - os.length) Objective.default else os

/-- One step of the loop in `MultiOptInstance::from_dimacs` (multiopt.rs l.400-413); `none` is the panic of an
objective index 0. -/
def MultiOptInstance.addMcnfData (p : SatInstance VM × List Objective) :
    McnfData → Option (SatInstance VM × List Objective)
  | .hard c => some (p.1.addClause c, p.2)
  | .soft idx w c =>
    if idx = 0 then none
    else some (p.1, (growObjs p.2 idx).modify (idx - 1) fun o => o.increaseSoftClause w c)
  | .comment _ => some p

/-- `MultiOptInstance::from_dimacs` (multiopt.rs l.396-416). -/
def MultiOptInstance.fromDimacs (dflt : VM) (s : Text) : Res FioError (MultiOptInstance VM) :=
  match readMcnf s with
  | none => .err .parsing
  | some ds =>
    match SatInstance.forLoop MultiOptInstance.addMcnfData ({ cnf := [], cards := [], pbs := [], vm := dflt }, []) ds with
    | none => .panic
    | some p => .ok (MultiOptInstance.compose p.1 p.2)

/-- One step of `FromIterator<McnfLine> for MultiOptInstance` (multiopt.rs l.467-482). -/
def MultiOptInstance.addMcnfLine (i : MultiOptInstance VM) : McnfLine → Option (MultiOptInstance VM)
  | .comment _ => some i
  | .hard c => some { i with constrs := i.constrs.addClause c }
  | .soft c w idx =>
    let objs := growObjs i.objs (idx + 1)
    match objs[idx]? with
    | none => none
    | some o =>
      match o.addSoftClause w c with
      | some (_, o') =>
        some ⟨{ i.constrs with vm := ManageVars.markLits i.constrs.vm c }, objs.set idx o'⟩
      | none => none

/-- `FromIterator<McnfLine> for MultiOptInstance` (multiopt.rs l.464-484). -/
def MultiOptInstance.ofMcnfLines (dflt : VM) (ls : List McnfLine) : Option (MultiOptInstance VM) :=
  SatInstance.forLoop MultiOptInstance.addMcnfLine ⟨{ cnf := [], cards := [], pbs := [], vm := dflt }, []⟩ ls

/-! ### Writing instances -/

/-- `Objective::iter_soft_cls` (opt.rs l.1086-1104, l.1156-1175). -/
def Objective.iterSoftCls : Objective → List (Clause × Nat)
  | .weighted _ sl sc => sl.map (fun p => ([p.1.neg], p.2)) ++ sc
  | .unweighted _ u sl sc => sl.map (fun l => ([l.neg], u.getD 0)) ++ sc.map fun c => (c, u.getD 0)

/-- `WriteDimacsError` (src/instances/mod.rs); input and output errors are not modelled. -/
inductive WriteDimacsError where
  | requiresClausal
deriving DecidableEq, Repr

/-- The result of writing: `none` is the panic of `to_ipasir`. -/
def written : Option Text → Res WriteDimacsError Text
  | some t => .ok t
  | none => .panic

/-- `SatInstance::write_dimacs` (sat.rs l.814-825). -/
def SatInstance.writeDimacs (s : SatInstance VM) : Res WriteDimacsError Text :=
  if 0 < s.cards.length ∨ 0 < s.pbs.length then .err .requiresClausal
  else written (writeCnfAnnotated s.cnf (ManageVars.nUsed s.vm))

/-- `OptInstance::write_dimacs` (opt.rs l.1405-1421). -/
def OptInstance.writeDimacs (i : OptInstance VM) : Res WriteDimacsError Text :=
  if 0 < i.constrs.cards.length ∨ 0 < i.constrs.pbs.length then .err .requiresClausal
  else written (writeWcnfAnnotated i.constrs.cnf i.obj.iterSoftCls i.obj.offset (some (ManageVars.nUsed i.constrs.vm)))

/-- `MultiOptInstance::write_dimacs` (multiopt.rs l.277-292). -/
def MultiOptInstance.writeDimacs (i : MultiOptInstance VM) : Res WriteDimacsError Text :=
  if 0 < i.constrs.cards.length ∨ 0 < i.constrs.pbs.length then .err .requiresClausal
  else written (writeMcnfAnnotated i.constrs.cnf (i.objs.map fun o => (o.iterSoftCls, o.offset))
    (some (ManageVars.nUsed i.constrs.vm)))

end RustSat
