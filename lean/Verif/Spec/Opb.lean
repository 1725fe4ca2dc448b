import Verif.Model.Opb
import Verif.Spec.Dimacs
import Verif.Spec.Constraints

/-
What OPB files look like and mean, independently of the parser: statements (constraints and objectives) as sums,
relations and bounds, their text with arbitrary space, and files as sequences of lines.
-/

namespace RustSat.OpbSpec
open Opb DimacsSpec

/-- Possibly empty space between two tokens. -/
def Spaces (s : Text) : Prop := ∀ c ∈ s, c = ' ' ∨ c = '\t'

instance (s : Text) : Decidable (Spaces s) := inferInstanceAs (Decidable (∀ c ∈ s, _))

/-- The relation a relational operator stands for. -/
def rel : Op → Int → Int → Prop
  | .le, x, b => x ≤ b
  | .ge, x, b => x ≥ b
  | .lt, x, b => x < b
  | .gt, x, b => x > b
  | .eq, x, b => x = b

/-- The text of a relational operator. -/
def opText : Op → Text
  | .le => "<=".toList
  | .ge => ">=".toList
  | .lt => "<".toList
  | .gt => ">".toList
  | .eq => "=".toList

/-- The text of an integer, positive ones possibly with a sign. -/
inductive NumText : Int → Text → Prop where
  | plain {i} : NumText i (Text.showInt i)
  | plus {i} : 0 < i → NumText i ('+' :: Text.showInt i)

/-- The range of coefficients and bounds. -/
def InRange (i : Int) : Prop := -9223372036854775808 ≤ i ∧ i ≤ 9223372036854775807

instance (i : Int) : Decidable (InRange i) := inferInstanceAs (Decidable (_ ∧ _))

/-- The text of a literal if variable 0 is called `x<first>`. -/
inductive LitText (first : Nat) : Lit → Text → Prop where
  | pos {v} : v ≤ 2147483647 → v + first ≤ 4294967295 → LitText first (Lit.pos v) ('x' :: Text.showNat (v + first))
  | tilde {v} : v ≤ 2147483647 → v + first ≤ 4294967295 →
      LitText first (Lit.negOf v) ('~' :: 'x' :: Text.showNat (v + first))
  | minus {v} : v ≤ 2147483647 → v + first ≤ 4294967295 →
      LitText first (Lit.negOf v) ('-' :: 'x' :: Text.showNat (v + first))

/-- The text of a sum of terms. -/
inductive SumText (first : Nat) : List (Lit × Int) → Text → Prop where
  | nil : SumText first [] []
  | one {l w n s t} : InRange w → NumText w n → Sep s → LitText first l t → SumText first [(l, w)] (n ++ (s ++ t))
  | cons {l w n s t s' p ps u} : InRange w → NumText w n → Sep s → LitText first l t → Sep s' →
      SumText first (p :: ps) u → SumText first ((l, w) :: p :: ps) (n ++ (s ++ (t ++ (s' ++ u))))

/-- A statement: `sum op b`, or an objective to be minimised or maximised. -/
inductive Stmt where
  | constr (sum : List (Lit × Int)) (op : Op) (b : Int)
  | obj (sense : Sense) (sum : List (Lit × Int))
deriving DecidableEq, Repr

/-- The text of a statement without its ending. -/
inductive StmtText (first : Nat) : Stmt → Text → Prop where
  | constr {sum op b t s s' n} : SumText first sum t → Spaces s → (sum = [] → s = []) → Spaces s' → InRange b →
      NumText b n → StmtText first (.constr sum op b) (t ++ (s ++ (opText op ++ (s' ++ n))))
  | min {sum s t} : Spaces s → SumText first sum t → StmtText first (.obj .minimize sum) ("min:".toList ++ (s ++ t))
  | max {sum s t} : Spaces s → SumText first sum t → StmtText first (.obj .maximize sum) ("max:".toList ++ (s ++ t))

/-- A line without white space at its start and without its line break: statements separated by `;`, the last of
which may lack it, and possibly a comment after them. -/
inductive LineText (first : Nat) : List Stmt → Text → Prop where
  | comment {t} : '\n' ∉ t → '\r' ∉ t → LineText first [] ('*' :: t)
  | last {st t s} : StmtText first st t → Spaces s → LineText first [st] (t ++ s)
  | semi {st t s s'} : StmtText first st t → Spaces s → Spaces s' → LineText first [st] (t ++ (s ++ ';' :: s'))
  | cons {st t s s' sts u} : StmtText first st t → Spaces s → Spaces s' → LineText first sts u →
      LineText first (st :: sts) (t ++ (s ++ ';' :: (s' ++ u)))

/-- A whole file: blank lines and lines of statements. -/
inductive FileText (first : Nat) : List Stmt → Text → Prop where
  | nil : FileText first [] []
  | blank {w sts rest} : White w → '\n' ∉ w → FileText first sts rest → FileText first sts (w ++ '\n' :: rest)
  | line {w t sts sts' rest} : White w → '\n' ∉ w ++ t → LineText first sts t → FileText first sts' rest →
      FileText first (sts ++ sts') (w ++ (t ++ '\n' :: rest))
  | lineCr {w t sts sts' rest} : White w → '\n' ∉ w ++ t → LineText first sts t → FileText first sts' rest →
      FileText first (sts ++ sts') (w ++ (t ++ '\r' :: '\n' :: rest))
  | lastBlank {w} : White w → '\n' ∉ w → FileText first [] w
  | lastLine {w t sts} : White w → '\n' ∉ w ++ t → LineText first sts t → FileText first sts (w ++ t)

/-- The value of a parsed objective. -/
def termsValue (a : Asg) : List (Nat × Lit) → Int
  | [] => 0
  | (w, l) :: ts => (if l.holds a then (w : Int) else 0) + termsValue a ts

/-- A datum means the same as a statement. -/
def Means : Stmt → Data → Prop
  | .constr sum op b, .constr c => ∀ a, c.sat a ↔ rel op (isum a sum) b
  | .obj se sum, .obj o => o.sense = se ∧ ∀ a, termsValue a o.terms + o.offset = isum a sum
  | _, _ => False

/-- The data without comments mean the same as the statements, one by one. -/
inductive AllMean : List Stmt → List Data → Prop where
  | nil : AllMean [] []
  | cmt {sts t ds} : AllMean sts ds → AllMean sts (.cmt t :: ds)
  | cons {st sts d ds} : Means st d → AllMean sts ds → AllMean (st :: sts) (d :: ds)

/-- An assignment satisfies all constraints among the statements. -/
def stmtsSat (a : Asg) (sts : List Stmt) : Prop := ∀ sum op b, Stmt.constr sum op b ∈ sts → rel op (isum a sum) b

/-- The sum of the negative coefficients of a sum. -/
def negSum : List (Lit × Int) → Int
  | [] => 0
  | (_, w) :: ts => (if w < 0 then w else 0) + negSum ts

/-- The sum of the absolute values of the coefficients. -/
def absSum : List (Lit × Int) → Nat
  | [] => 0
  | (_, w) :: ts => w.natAbs + absSum ts

/-- Statements whose numbers stay in range while they are read: the bound of a strict inequality can be increased, and
the coefficients of an objective can be added up. -/
def Fits : Stmt → Prop
  | .constr _ op b => op = .lt ∨ op = .gt → b < 9223372036854775807
  | .obj .minimize sum => InRange (negSum sum)
  | .obj .maximize sum => InRange (negSum sum - absSum sum) ∧ absSum sum ≤ 9223372036854775807

/-- No strict upper bounds. -/
def NoLt : Stmt → Prop
  | .constr _ op _ => op ≠ .lt
  | .obj _ _ => True

/-- The objectives among the statements. -/
def objectives : List Stmt → List (Sense × List (Lit × Int))
  | [] => []
  | .constr _ _ _ :: sts => objectives sts
  | .obj se sum :: sts => (se, sum) :: objectives sts

/-- What an OPB objective is turned into: a sum to be minimised is kept as it is, a sum to be maximised becomes its
negation plus a constant, which is twice the sum of the negative coefficients. -/
def ObjMeans (se : Sense) (sum : List (Lit × Int)) (o : Objective) : Prop :=
  match se with
  | .minimize => ∀ a, o.value a = isum a sum
  | .maximize => ∀ a, o.value a = 2 * negSum sum - isum a sum

/-- The same for lists of objectives. -/
inductive ObjsMean : List (Sense × List (Lit × Int)) → List Objective → Prop where
  | nil : ObjsMean [] []
  | cons {se sum o ss os} : o.WF → ObjMeans se sum o → ObjsMean ss os → ObjsMean ((se, sum) :: ss) (o :: os)

/-! ### What can be written -/

/-- The variable of a literal has a name. -/
def VarFits (first : Nat) (l : Lit) : Prop := l.var ≤ 2147483647 ∧ l.var + first ≤ 4294967295

instance (first : Nat) (l : Lit) : Decidable (VarFits first l) := inferInstanceAs (Decidable (_ ∧ _))

/-- Constraints whose coefficients and bound add up to a machine integer. -/
def ClauseFits (first : Nat) (c : Clause) : Prop := (∀ l ∈ c, VarFits first l) ∧ c.length + 1 ≤ 9223372036854775807

def CardFits (first : Nat) (c : CardConstraint) : Prop :=
  (∀ l ∈ c.lits, VarFits first l) ∧ c.lits.length + c.bound ≤ 9223372036854775807

def PbFits (first : Nat) (c : PbConstraint) : Prop :=
  (∀ p ∈ c.lits, VarFits first p.1) ∧ wtotal c.lits + c.bound.natAbs ≤ 9223372036854775807

/-- The same for the soft literals and the offset of an objective. -/
def SoftFits (first : Nat) (ls : List (Lit × Nat)) (off : Int) : Prop :=
  (∀ p ∈ ls, VarFits first p.1) ∧ wtotal ls + off.natAbs ≤ 9223372036854775807

/-- All constraints of an instance can be written. -/
def InstanceFits {VM : Type} (first : Nat) (s : SatInstance VM) : Prop :=
  (∀ c ∈ s.cnf, ClauseFits first c) ∧ (∀ c ∈ s.cards, CardFits first c) ∧ ∀ c ∈ s.pbs, PbFits first c

/-- The comment with the part of the objective that is not written as a term. -/
def offsetComment (k : Int) : Text :=
  if k = 0 then [] else "* objective offset for previous objective: ".toList ++ Text.showInt k ++ ['\n']

/-- What a line to be written says about an assignment. -/
def lineSat (a : Asg) : FileLine → Prop
  | .comment _ => True
  | .clause c => Clause.sat a c
  | .card c => c.sat a
  | .pb c => c.sat a
  | .objective _ => True

/-- The objectives among lines to be written. -/
def lineObjs : List FileLine → List (List (Lit × Nat))
  | [] => []
  | .objective o :: ls => o :: lineObjs ls
  | _ :: ls => lineObjs ls

/-- A line that can be written; comments must not contain line breaks. -/
def LineFits (first : Nat) : FileLine → Prop
  | .comment t => '\n' ∉ t ∧ '\r' ∉ t
  | .clause c => ClauseFits first c
  | .card c => CardFits first c
  | .pb c => PbFits first c
  | .objective o => SoftFits first o 0

end RustSat.OpbSpec
