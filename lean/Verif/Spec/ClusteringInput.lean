import Verif.Model.ClusteringInput
import Verif.Spec.Clustering
/-
The format of the input of the clustering encoding, and the exact values of its numbers.
-/
namespace RustSat
namespace Clustering

/-- An optional sign. -/
def SignText (neg : Bool) (s : Text) : Prop := ((s = [] ∨ s = ['+']) ∧ neg = false) ∨ (s = ['-'] ∧ neg = true)

/-- At least one digit, and nothing else. -/
def DigitsText (d : Text) : Prop := d ≠ [] ∧ ∀ c ∈ d, Text.isDigit c = true

/-- Digits before and after a point, one of both may be missing, and without digits after it the point may be missing. -/
def MantissaText (i f m : Text) : Prop :=
  (DigitsText i ∧ f = [] ∧ m = i) ∨ (DigitsText i ∧ (∀ c ∈ f, Text.isDigit c = true) ∧ m = i ++ '.' :: f) ∨
  (i = [] ∧ DigitsText f ∧ m = '.' :: f)

/-- An optional exponent. -/
def ExponentText (x : ℤ) (e : Text) : Prop :=
  (e = [] ∧ x = 0) ∨
  ∃ c n s d, (c = 'e' ∨ c = 'E') ∧ SignText n s ∧ DigitsText d ∧ e = c :: (s ++ d) ∧ x = if n then -(Text.readNat d : ℤ) else Text.readNat d

/-- A text in upper or lower case. -/
def AnyCase (t u : Text) : Prop := u.map Char.toLower = t

/-- The text of a number. -/
def NumberText : NumberParts → Text → Prop
  | .num n i f x, t => ∃ s m e, t = s ++ (m ++ e) ∧ SignText n s ∧ MantissaText i f m ∧ ExponentText x e
  | .nan, t => AnyCase ['n', 'a', 'n'] t
  | .inf n, t => ∃ s u, t = s ++ u ∧ SignText n s ∧ (AnyCase ['i', 'n', 'f'] u ∨ AnyCase ['i', 'n', 'f', 'i', 'n', 'i', 't', 'y'] u)

/-- An identifier. -/
def IdentText (x : Text) : Prop := x ≠ [] ∧ ∀ c ∈ x, isIdent c = true

/-- White space between parts of a line. -/
def GapText (w : Text) : Prop := w ≠ [] ∧ ∀ c ∈ w, isMultispace c = true

/-- A line with an entry: `[nodeA] [nodeB] [similarity value]` (tools/src/bin/encodings.rs l.87-89), after any white space. -/
def EntryLine (x y : Text) (v : NumberParts) (l : Text) : Prop :=
  ∃ p w w' t, l = p ++ (x ++ (w ++ (y ++ (w' ++ t)))) ∧ (∀ c ∈ p, Text.isWs c = true) ∧ IdentText x ∧ IdentText y ∧ GapText w ∧ GapText w' ∧
    NumberText v t

/-- A line without entry: blank or a comment. -/
def EmptyLine (l : Text) : Prop := (∀ c ∈ l, Text.isWs c = true) ∨ ∃ p t, l = p ++ '%' :: t ∧ ∀ c ∈ p, Text.isWs c = true

/-- The lines of a file and its entries. -/
inductive FileLines : List (Text × Text × NumberParts) → List Text → Prop
  | nil : FileLines [] []
  | skip (l : Text) (es : List (Text × Text × NumberParts)) (L : List Text) : EmptyLine l → '\n' ∉ l → FileLines es L → FileLines es (l :: L)
  | entry (l x y : Text) (v : NumberParts) (es : List (Text × Text × NumberParts)) (L : List Text) : EntryLine x y v l → '\n' ∉ l →
      FileLines es L → FileLines ((x, y, v) :: es) (l :: L)

/-- The text of a file: lines end with a line feed or with carriage return and line feed, the last one may lack it. -/
inductive FileText : List Text → Text → Prop
  | nil : FileText [] []
  | last (l : Text) : l ≠ [] → FileText [l] l
  | lf (l : Text) (L : List Text) (t : Text) : (∀ r, l ≠ r ++ ['\r']) → FileText L t → FileText (l :: L) (l ++ '\n' :: t)
  | crlf (l : Text) (L : List Text) (t : Text) : FileText L t → FileText (l :: L) (l ++ '\r' :: '\n' :: t)

/-- The exact value of a number in a text. -/
def NumberParts.exact : NumberParts → Option ℚ
  | .num n i f x => some ((if n then -1 else 1) * (Text.readNat (i ++ f) * 10 ^ (x - f.length)))
  | _ => none

end Clustering
end RustSat
