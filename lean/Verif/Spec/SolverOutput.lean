import Verif.Model.SolverOutput
import Verif.Spec.Opb

/-
What the output of a SAT solver says, independently of the reader: status lines, value lines and their formats.
-/

namespace RustSat.OutputSpec
open DimacsSpec

/-- A status line: it starts with `s `. -/
def StatusLine (l : Text) : Prop := ∃ r, l = 's' :: ' ' :: r

/-- A status line whose first word starts with the given one. -/
def Says (w : Text) (l : Text) : Prop := ∃ s r, White s ∧ l = 's' :: ' ' :: (s ++ (w ++ r))

def SaysUnsat (l : Text) : Prop := Says "UNSATISFIABLE".toList l
def SaysSat (l : Text) : Prop := Says "SATISFIABLE".toList l
def SaysUnknown (l : Text) : Prop := Says "UNKNOWN".toList l ∨ Says "INDETERMINATE".toList l
/-- A status line without a known status. -/
def Malformed (l : Text) : Prop := StatusLine l ∧ ¬ SaysUnsat l ∧ ¬ SaysSat l ∧ ¬ SaysUnknown l

/-- A line that ends the search for a solution: any status other than satisfiable. -/
def Decisive (l : Text) : Prop := StatusLine l ∧ ¬ SaysSat l

/-- A value line: it starts with `v `. -/
def ValueLine (l : Text) : Prop := ∃ r, l = 'v' :: ' ' :: r

/-- Collecting the values of all value lines among lines, one after the other. -/
inductive Collects : Assignment → List Text → Assignment → Prop where
  | nil {a} : Collects a [] a
  | other {a l ls a'} : ¬ ValueLine l → Collects a ls a' → Collects a (l :: ls) a'
  | value {a l a1 ls a'} : ValueLine l → a.extendFromVline l = .ok a1 → Collects a1 ls a' → Collects a (l :: ls) a'

/-- The lines up to a decisive one: values can be read, and no status other than satisfiable occurs. -/
def Quiet (ls : List Text) : Prop := (∀ l ∈ ls, ¬ Decisive l) ∧ ∃ a, Collects Assignment.empty ls a

/-- Words separated and surrounded by white space. -/
inductive Words : List Text → Text → Prop where
  | nil {w} : White w → Words [] w
  | last {w x} : White w → x ≠ [] → (∀ c ∈ x, Text.isWs c = false) → Words [x] (w ++ x)
  | cons {w x b xs t} : White w → x ≠ [] → (∀ c ∈ x, Text.isWs c = false) → Text.isWs b = true → Words xs t →
      Words (x :: xs) (w ++ (x ++ (b :: t)))

/-- The literals listed in a value line. In the SAT competition format these are numbers (zeros end the list of
literals), in the PB competition format named literals. The line must not consist of one word of zeros and ones: such a
line is taken to be in the format of the MaxSAT Evaluation. -/
inductive ListsLits : List Lit → Text → Prop where
  | satComp {zs : List Int} {ls : List Lit} {t : Text} : Words (zs.map Text.showInt) t →
      (∀ z ∈ zs, -2147483647 ≤ z ∧ z ≤ 2147483647) → (zs.filter (· ≠ 0)) = ls.map (fun l =>
        if l.isNeg then -((l.var : Int) + 1) else (l.var : Int) + 1) →
      (zs.length = 1 → ∀ z ∈ zs, z ≠ 0 → ∃ c ∈ Text.showInt z, c ≠ '0' ∧ c ≠ '1') →
      ListsLits ls ('v' :: ' ' :: t)
  | pbComp {ls : List Lit} {ws : List Text} {t : Text} : Words ws t → ws.length = ls.length →
      (∀ p ∈ ls.zip ws, OpbSpec.LitText 1 p.1 p.2) → ListsLits ls ('v' :: ' ' :: t)

/-- The output of a solver that found a solution, and all literals listed in it. -/
inductive SatOutput : List Text → List Lit → Prop where
  | nil : SatOutput [] []
  | status {l ls lits} : SaysSat l → SatOutput ls lits → SatOutput (l :: ls) lits
  | other {l ls lits} : ¬ StatusLine l → ¬ ValueLine l → SatOutput ls lits → SatOutput (l :: ls) lits
  | value {l lits ls lits'} : ListsLits lits l → '\n' ∉ l → SatOutput ls lits' → SatOutput (l :: ls) (lits ++ lits')

/-- The value line of the MaxSAT Evaluation format for the given values of consecutive variables. A single zero is not
such a line. -/
def BitLine (bs : List Bool) (l : Text) : Prop :=
  bs ≠ [false] ∧ ∃ w w', White w ∧ White w' ∧ l = 'v' :: ' ' :: (w ++ ((bs.map fun b => if b then '1' else '0') ++ w'))

/-- The output of a MaxSAT solver that found a solution, and the values listed in it. -/
inductive BitOutput : List Text → List Bool → Prop where
  | nil : BitOutput [] []
  | status {l ls bs} : SaysSat l → BitOutput ls bs → BitOutput (l :: ls) bs
  | other {l ls bs} : ¬ StatusLine l → ¬ ValueLine l → BitOutput ls bs → BitOutput (l :: ls) bs
  | value {l bs ls bs'} : BitLine bs l → '\n' ∉ l → BitOutput ls bs' → BitOutput (l :: ls) (bs ++ bs')

end RustSat.OutputSpec
