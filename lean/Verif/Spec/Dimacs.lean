import Verif.Model.Dimacs
import Verif.Spec.Objective

/-
What DIMACS files look like, independently of the parsers: the text of a clause or of a line, with arbitrary white
space, and files as sequences of lines.
-/

namespace RustSat.DimacsSpec
open Dimacs

/-- Non-empty space between two tokens. -/
def Sep (s : Text) : Prop := s ≠ [] ∧ ∀ c ∈ s, c = ' ' ∨ c = '\t'

/-- Possibly empty white space around a line. -/
def White (s : Text) : Prop := ∀ c ∈ s, Text.isWs c = true

instance (s : Text) : Decidable (White s) := inferInstanceAs (Decidable (∀ c ∈ s, _))

/-- The signed number of a literal in DIMACS files. -/
def number (l : Lit) : Int := if l.isNeg then -((l.var : Int) + 1) else (l.var : Int) + 1

/-- Literals with a DIMACS number that fits 32 bits. -/
def Writable (c : Clause) : Prop := ∀ l ∈ c, (l.var : Int) + 1 ≤ 2147483647

/-- The text of a clause: the numbers of its literals and a final `0`, with space in between. -/
inductive ClauseText : Clause → Text → Prop where
  | zero : ClauseText [] ['0']
  | cons {l c s t} : (l.var : Int) + 1 ≤ 2147483647 → Sep s → ClauseText c t →
      ClauseText (l :: c) (Text.showInt (number l) ++ (s ++ t))

/-- The text does not contain line breaks and does not end in white space. -/
structure CommentText (t : Text) : Prop where
  nl : '\n' ∉ t
  cr : '\r' ∉ t
  last : ∀ c r, t = r ++ [c] → Text.isWs c = false

/-- Lines of CNF files. -/
inductive CnfLineText : CnfData → Text → Prop where
  | clause {c t} : ClauseText c t → CnfLineText (.clause c) t
  | comment {t} : CommentText ('c' :: t) → CnfLineText (.comment ('c' :: t)) ('c' :: t)

/-- Lines of WCNF files in the format used since 2022. -/
inductive WcnfLineText : WcnfData → Text → Prop where
  | hard {c s t} : Sep s → ClauseText c t → WcnfLineText (.hard c) ('h' :: (s ++ t))
  | soft {w c s t} : w ≤ usizeMax → Sep s → ClauseText c t → WcnfLineText (.soft w c) (Text.showNat w ++ (s ++ t))
  | comment {t} : CommentText ('c' :: t) → WcnfLineText (.comment ('c' :: t)) ('c' :: t)

/-- Lines of WCNF files in the format used before 2022: clauses of weight at least `top` are hard. -/
inductive OldWcnfLineText (top : Nat) : WcnfData → Text → Prop where
  | hard {w c s t} : w ≤ usizeMax → top ≤ w → Sep s → ClauseText c t →
      OldWcnfLineText top (.hard c) (Text.showNat w ++ (s ++ t))
  | soft {w c s t} : w ≤ usizeMax → w < top → Sep s → ClauseText c t →
      OldWcnfLineText top (.soft w c) (Text.showNat w ++ (s ++ t))
  | comment {t} : CommentText ('c' :: t) → OldWcnfLineText top (.comment ('c' :: t)) ('c' :: t)

/-- Lines of MCNF files. -/
inductive McnfLineText : McnfData → Text → Prop where
  | hard {c s t} : Sep s → ClauseText c t → McnfLineText (.hard c) ('h' :: (s ++ t))
  | soft {i w c s s' s'' t} : 1 ≤ i → i ≤ usizeMax → w ≤ usizeMax → (∀ x ∈ s, x = ' ' ∨ x = '\t') → Sep s' → Sep s'' →
      ClauseText c t →
      McnfLineText (.soft i w c) ('o' :: (s ++ (Text.showNat i ++ (s' ++ (Text.showNat w ++ (s'' ++ t))))))
  | comment {t} : CommentText ('c' :: t) → McnfLineText (.comment ('c' :: t)) ('c' :: t)

/-- The header line of a CNF file. -/
inductive CnfHeaderText (nv nc : Nat) : Text → Prop where
  | mk {s s' s''} : Sep s → Sep s' → Sep s'' →
      CnfHeaderText nv nc ('p' :: (s ++ ('c' :: 'n' :: 'f' :: (s' ++ (Text.showNat nv ++ (s'' ++ Text.showNat nc))))))

/-- The header line of an old WCNF file. -/
inductive WcnfHeaderText (nv nc top : Nat) : Text → Prop where
  | mk {s s' s'' s'''} : Sep s → Sep s' → Sep s'' → Sep s''' →
      WcnfHeaderText nv nc top ('p' :: (s ++ ('w' :: 'c' :: 'n' :: 'f' :: (s' ++ (Text.showNat nv ++ (s'' ++
        (Text.showNat nc ++ (s''' ++ Text.showNat top))))))))

/-- Lines of a file without their line breaks, each of them blank or the text of a datum with white space (such
as a carriage return) around it. -/
inductive FileLines {α : Type} (R : α → Text → Prop) : List Text → List α → Prop where
  | nil : FileLines R [] []
  | blank {w ls as} : White w → '\n' ∉ w → FileLines R ls as → FileLines R (w :: ls) as
  | data {a t w w' ls as} : R a t → White w → White w' → '\n' ∉ w ++ t ++ w' → FileLines R ls as →
      FileLines R ((w ++ t ++ w') :: ls) (a :: as)

/-- Lines that may come before the header: blank lines and comments. -/
def IgnoredLine (l : Text) : Prop := '\n' ∉ l ∧ (White l ∨ ∃ w t, White w ∧ l = w ++ 'c' :: t)

/-- The clauses of a CNF file. -/
def clauses : List CnfData → List Clause
  | [] => []
  | .clause c :: ds => c :: clauses ds
  | .comment _ :: ds => clauses ds

/-- Comments of WCNF files. -/
def isComment : WcnfData → Bool
  | .comment _ => true
  | _ => false

/-- The hard clauses of a WCNF file. -/
def hards : List WcnfData → List Clause
  | [] => []
  | .hard c :: ds => c :: hards ds
  | .soft _ _ :: ds => hards ds
  | .comment _ :: ds => hards ds

/-- The soft clauses of a WCNF file. -/
def softs : List WcnfData → List (Clause × Nat)
  | [] => []
  | .hard _ :: ds => softs ds
  | .soft w c :: ds => (c, w) :: softs ds
  | .comment _ :: ds => softs ds

/-- The hard clauses of an MCNF file. -/
def moHards : List McnfData → List Clause
  | [] => []
  | .hard c :: ds => c :: moHards ds
  | .soft _ _ _ :: ds => moHards ds
  | .comment _ :: ds => moHards ds

/-- The soft clauses of the objective with this index (starting from 1) of an MCNF file. -/
def moSofts (i : Nat) : List McnfData → List (Clause × Nat)
  | [] => []
  | .hard _ :: ds => moSofts i ds
  | .soft j w c :: ds => if j = i then (c, w) :: moSofts i ds else moSofts i ds
  | .comment _ :: ds => moSofts i ds

/-- The largest objective index of an MCNF file. -/
def moMax : List McnfData → Nat
  | [] => 0
  | .hard _ :: ds => moMax ds
  | .soft j _ _ :: ds => max j (moMax ds)
  | .comment _ :: ds => moMax ds

/-- The soft clauses of several objectives as the lines of an MCNF file, the first objective having index `i + 1`. -/
def moData : Nat → List (List (Clause × Nat)) → List McnfData
  | _, [] => []
  | i, o :: os => o.map (fun p => .soft (i + 1) p.2 p.1) ++ moData (i + 1) os

/-- The value of the objective at a position of a list; missing objectives are constantly 0. -/
def objValue (os : List Objective) (k : Nat) (a : Asg) : Int :=
  match os[k]? with
  | some o => o.value a
  | none => 0

end RustSat.DimacsSpec
