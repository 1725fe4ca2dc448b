import Verif.Spec.Dimacs
/-
Which DIMACS texts are accepted, and what the standard says they mean.
-/
namespace RustSat.DimacsSpec
open Dimacs

/-- The lines of a text, without their line feeds. -/
inductive LinesOf : List Text → Text → Prop where
  | nil : LinesOf [] []
  | last {l} : l ≠ [] → '\n' ∉ l → LinesOf [l] l
  | line {l L t} : '\n' ∉ l → LinesOf L t → LinesOf (l :: L) (l ++ '\n' :: t)

/-- Decimal digits without a zero in front. -/
def Digits (d : Text) : Prop := ∃ c r, d = c :: r ∧ Text.isDigit19 c = true ∧ ∀ x ∈ r, Text.isDigit x = true

/-- Texts of an integer other than zero, with an optional sign. -/
inductive IntText : Int → Text → Prop where
  | plain {d} : Digits d → IntText (Text.readNat d) d
  | plus {d} : Digits d → IntText (Text.readNat d) ('+' :: d)
  | minus {d} : Digits d → IntText (-(Text.readNat d : Int)) ('-' :: d)

/-- Texts of a natural number, with an optional plus sign. -/
def NatText (n : Nat) (t : Text) : Prop := ∃ d, (d = ['0'] ∨ Digits d) ∧ n = Text.readNat d ∧ (t = d ∨ t = '+' :: d)

/-- The literal has a number that fits 32 bits. -/
def Fits (l : Lit) : Prop := -2147483648 ≤ number l ∧ number l ≤ 2147483647

/-- The accepted texts of a clause: numbers with space in between, followed by a zero (flag `true`) or not. -/
inductive ClauseLine : Bool → Clause → Text → Prop where
  | zero : ClauseLine true [] ['0']
  | last {l t} : Fits l → IntText (number l) t → ClauseLine false [l] t
  | cons {b l c t s u} : Fits l → IntText (number l) t → Sep s → ClauseLine b c u → ClauseLine b (l :: c) (t ++ (s ++ u))

/-- Accepted lines of CNF files. -/
inductive CnfLineRead : CnfData → Text → Prop where
  | clause {b c t} : ClauseLine b c t → CnfLineRead (.clause c) t
  | comment {t} : CommentText ('c' :: t) → CnfLineRead (.comment ('c' :: t)) ('c' :: t)

/-- Accepted lines with a hard or a soft clause. -/
inductive WcnfDataRead : WcnfData → Text → Prop where
  | hard {b c s t} : Sep s → ClauseLine b c t → WcnfDataRead (.hard c) ('h' :: (s ++ t))
  | soft {b w c n s t} : NatText w n → w ≤ usizeMax → Sep s → ClauseLine b c t → WcnfDataRead (.soft w c) (n ++ (s ++ t))

/-- Accepted lines of WCNF files in the format used since 2022. -/
inductive WcnfLineRead : WcnfData → Text → Prop where
  | data {d t} : WcnfDataRead d t → WcnfLineRead d t
  | comment {t} : CommentText ('c' :: t) → WcnfLineRead (.comment ('c' :: t)) ('c' :: t)

/-- Accepted lines of WCNF files in the format used before 2022. -/
inductive OldWcnfLineRead (top : Nat) : WcnfData → Text → Prop where
  | hard {b w c n s t} : NatText w n → w ≤ usizeMax → top ≤ w → Sep s → ClauseLine b c t →
      OldWcnfLineRead top (.hard c) (n ++ (s ++ t))
  | soft {b w c n s t} : NatText w n → w ≤ usizeMax → w < top → Sep s → ClauseLine b c t →
      OldWcnfLineRead top (.soft w c) (n ++ (s ++ t))
  | comment {t} : CommentText ('c' :: t) → OldWcnfLineRead top (.comment ('c' :: t)) ('c' :: t)

/-- Accepted lines of MCNF files. -/
inductive McnfLineRead : McnfData → Text → Prop where
  | hard {b c s t} : Sep s → ClauseLine b c t → McnfLineRead (.hard c) ('h' :: (s ++ t))
  | soft {b d w c n s s' s'' t} : Digits d → Text.readNat d ≤ usizeMax → NatText w n → w ≤ usizeMax →
      (∀ x ∈ s, x = ' ' ∨ x = '\t') → Sep s' → Sep s'' → ClauseLine b c t →
      McnfLineRead (.soft (Text.readNat d) w c) ('o' :: (s ++ (d ++ (s' ++ (n ++ (s'' ++ t))))))
  | comment {t} : CommentText ('c' :: t) → McnfLineRead (.comment ('c' :: t)) ('c' :: t)

/-- Accepted headers of CNF files. -/
inductive CnfHeaderRead (nv nc : Nat) : Text → Prop where
  | mk {s s' s'' n m} : Sep s → Sep s' → Sep s'' → NatText nv n → nv ≤ u32Max → NatText nc m → nc ≤ usizeMax →
      CnfHeaderRead nv nc ('p' :: (s ++ ('c' :: 'n' :: 'f' :: (s' ++ (n ++ (s'' ++ m))))))

/-- Accepted headers of WCNF files. -/
inductive WcnfHeaderRead (nv nc top : Nat) : Text → Prop where
  | mk {s s' s'' s''' n m k} : Sep s → Sep s' → Sep s'' → Sep s''' → NatText nv n → nv ≤ u32Max → NatText nc m →
      nc ≤ usizeMax → NatText top k → top ≤ usizeMax →
      WcnfHeaderRead nv nc top ('p' :: (s ++ ('w' :: 'c' :: 'n' :: 'f' :: (s' ++ (n ++ (s'' ++ (m ++ (s''' ++ k))))))))

/-- A line with white space around a text. -/
def Around (R : Text → Prop) (l : Text) : Prop := ∃ w t w', l = w ++ t ++ w' ∧ White w ∧ White w' ∧ R t

/-- A CNF file as it is accepted. -/
def CnfFile (nv nc : Nat) (ds : List CnfData) (body : List Text) (t : Text) : Prop :=
  ∃ pre l, LinesOf (pre ++ l :: body) t ∧ (∀ p ∈ pre, IgnoredLine p) ∧ Around (CnfHeaderRead nv nc) l ∧
    FileLines CnfLineRead body ds

/-- A WCNF file as it is accepted: number of variables, if there is a header, and data. -/
inductive WcnfFile : Option Nat → List WcnfData → Text → Prop where
  | empty {pre t} : LinesOf pre t → (∀ p ∈ pre, IgnoredLine p) → WcnfFile none [] t
  | new {pre l ls d ds t} : LinesOf (pre ++ l :: ls) t → (∀ p ∈ pre, IgnoredLine p) → Around (WcnfDataRead d) l →
      FileLines WcnfLineRead ls ds → WcnfFile none (d :: ds) t
  | old {pre l ls ds nv nc top t} : LinesOf (pre ++ l :: ls) t → (∀ p ∈ pre, IgnoredLine p) →
      Around (WcnfHeaderRead nv nc top) l → FileLines (OldWcnfLineRead top) ls ds → WcnfFile (some nv) ds t

/-- An MCNF file as it is accepted. -/
def McnfFile (ds : List McnfData) (t : Text) : Prop := ∃ L, LinesOf L t ∧ FileLines McnfLineRead L ds

/-! ### The standard -/

/-- The number a word stands for. -/
def wordInt : Text → Option Int
  | '-' :: d => if d ≠ [] ∧ d.all Text.isDigit then some (-(Text.readNat d : Int)) else none
  | '+' :: d => if d ≠ [] ∧ d.all Text.isDigit then some (Text.readNat d) else none
  | d => if d ≠ [] ∧ d.all Text.isDigit then some (Text.readNat d) else none

/-- The numbers of words. -/
def wordInts : List Text → Option (List Int)
  | [] => some []
  | w :: ws =>
    match wordInt w, wordInts ws with
    | some n, some ns => some (n :: ns)
    | _, _ => none

/-- Clauses are ended by zeros. -/
def splitZeros : List Int → Option (List (List Int))
  | [] => some []
  | n :: ns =>
    if n = 0 then (splitZeros ns).map ([] :: ·)
    else
      match splitZeros ns with
      | some (c :: cs) => some ((n :: c) :: cs)
      | _ => none

/-- A comment line. -/
def commentLine (l : Text) : Bool := Text.startsWith ['c'] (Text.trimStart l)

/-- The clauses in the lines after the header, as the DIMACS standard defines them: line breaks between numbers are nothing but
white space, and each clause is ended by a zero. -/
def standardClauses (body : List Text) : Option (List (List Int)) :=
  match wordInts ((body.filter fun l => !commentLine l).flatMap Text.splitWs) with
  | some ns => splitZeros ns
  | none => none

/-- The last word of a line is a zero. -/
def EndsInZero (l : Text) : Prop := (Text.splitWs l).getLast? = some ['0']

end RustSat.DimacsSpec
