import Verif.Model.Text
import Verif.Spec.ProblemEnc
/-
The file formats of knapsacks (MOO-Library and vOptLib), assignment problems (MOO-Library) and facility location (vOptLib).
-/
namespace RustSat
namespace Problems
open Text

/-- Spaces and tabs. -/
def Blank (w : Text) : Prop := ∀ c ∈ w, P.isSpace c = true

/-- White space within a line. -/
def Pad (w : Text) : Prop := ∀ c ∈ w, isWs c = true ∧ c ≠ '\n'

/-- A line that is empty or a comment. -/
def NoContent (l : Text) : Prop := Pad l ∨ ∃ w t, l = w ++ '#' :: t ∧ Pad w ∧ '\n' ∉ t

/-- The end of a line after a number: possibly a comment, and possibly a carriage return. -/
def LineTail (t : Text) : Prop :=
  ∃ c e, t = c ++ e ∧ (e = [] ∨ e = ['\r']) ∧ (c = [] ∨ ∃ s, c = '#' :: s ∧ '\n' ∉ s ∧ '\r' ∉ s)

/-- A line with one number. -/
def NumText (n : Nat) (l : Text) : Prop := ∃ w w' t, l = w ++ (showNat n ++ (w' ++ t)) ∧ Blank w ∧ Blank w' ∧ LineTail t

/-- A list after its opening bracket: numbers separated by commas, and the closing bracket. -/
inductive ListRest : List Nat → Text → Prop
  | last (v : Nat) (w : Text) : Blank w → ListRest [v] (showNat v ++ (w ++ [']']))
  | more (v : Nat) (w w' : Text) (vs : List Nat) (t : Text) : Blank w → Blank w' → ListRest vs t →
      ListRest (v :: vs) (showNat v ++ (w ++ ',' :: (w' ++ t)))

/-- A list of numbers. -/
def ListText (vs : List Nat) (t : Text) : Prop := ∃ w r, t = '[' :: (w ++ r) ∧ Blank w ∧ ListRest vs r

/-- Lines, each with its end. -/
def unlines (L : List Text) : Text := L.flatMap (· ++ ['\n'])

/-- Lines with these numbers, and comments and empty lines. -/
inductive Nums : List Nat → List Text → Prop
  | nil : Nums [] []
  | skip (l : Text) (ns : List Nat) (L : List Text) : NoContent l → Nums ns L → Nums ns (l :: L)
  | num (l : Text) (n : Nat) (ns : List Nat) (L : List Text) : NumText n l → Nums ns L → Nums (n :: ns) (l :: L)

/-- The rows of a list of lists, one per line; the flag says whether the outer list was opened already. -/
inductive Rows : Bool → List (List Nat) → List Text → Prop
  | skip (b : Bool) (l : Text) (rows : List (List Nat)) (L : List Text) : NoContent l → Rows b rows L → Rows b rows (l :: L)
  | more (b : Bool) (p p' x w : Text) (row : List Nat) (rows : List (List Nat)) (L : List Text) : Pad p → Pad p' → ListText row x →
      Blank w → Rows true rows L →
      Rows b (row :: rows) ((p ++ ((if b then [] else ['[']) ++ (x ++ (w ++ [','])) ++ p')) :: L)
  | last (b : Bool) (p p' x w : Text) (row : List Nat) : Pad p → Pad p' → ListText row x → Blank w →
      Rows b [row] [p ++ ((if b then [] else ['[']) ++ (x ++ (w ++ [']'])) ++ p')]

/-- A knapsack in the format of MOO-Library: the numbers of objectives and items, the capacity, a list of values for every objective,
and the weights. -/
def KnapsackFile (d : KnapsackData) (nObjs : Nat) (L : List Text) : Prop :=
  ∃ L1 L2 L3 p x p', L = L1 ++ (L2 ++ (L3 ++ [p ++ (x ++ p')])) ∧
    Nums [nObjs, d.items.length, d.capacity] L1 ∧
    Rows false ((List.range nObjs).map fun k => d.items.map fun it => it.values.getD k 0) L2 ∧
    (∀ l ∈ L3, NoContent l) ∧ Pad p ∧ Pad p' ∧ ListText (d.items.map (·.weight)) x

/-- The numbers of a knapsack fit machine integers. -/
structure KnapsackData.NumbersFit (d : KnapsackData) (nObjs : Nat) : Prop where
  objs : nObjs ≤ usizeMax
  items : d.items.length ≤ usizeMax
  capacity : d.capacity ≤ usizeMax
  weights : ∀ it ∈ d.items, it.weight ≤ usizeMax
  values : ∀ it ∈ d.items, it.values.length = nObjs ∧ ∀ v ∈ it.values, v ≤ usizeMax

/-- The numbers of a knapsack in the format of vOptLib: of items, of objectives, of constraints (one); values and weights, and the
capacity. -/
def KnapsackData.voptNums (d : KnapsackData) (nObjs : Nat) : List Nat :=
  [d.items.length, nObjs, 1] ++ ((List.range nObjs).flatMap fun k => d.items.map fun it => it.values.getD k 0) ++
    d.items.map (·.weight) ++ [d.capacity]

/-- Numbers separated by spaces. -/
inductive SepRest : List Nat → Text → Prop
  | last (v : Nat) : SepRest [v] (showNat v)
  | more (v : Nat) (w : Text) (vs : List Nat) (t : Text) : Blank w → w ≠ [] → SepRest vs t → SepRest (v :: vs) (showNat v ++ (w ++ t))

/-- A line of numbers separated by spaces. -/
def SepLine (vs : List Nat) (l : Text) : Prop := ∃ w t p, l = w ++ (t ++ p) ∧ Blank w ∧ SepRest vs t ∧ Pad p

/-- A facility location problem in the format of vOptLib: the numbers of customers and facilities, and after an arbitrary line each: for
both objectives the costs of supply with a line for every customer, for both objectives the opening costs. -/
def FacilityFile (customers facilities : Nat) (supply : Nat → Nat → Nat → Nat) (opening : Nat → Nat → Nat) (L : List Text) : Prop :=
  ∃ l1 l2 b1 b2 b3 b4 r1 r2 C1 C2, L = [l1, l2] ++ (b1 :: C1) ++ (b2 :: C2) ++ [b3, r1, b4, r2] ∧
    NumText customers l1 ∧ NumText facilities l2 ∧
    (∀ b ∈ [b1, b2, b3, b4], '\n' ∉ b) ∧
    C1.length = customers ∧ (∀ i l, C1[i]? = some l → SepLine ((List.range facilities).map (supply 0 i)) l) ∧
    C2.length = customers ∧ (∀ i l, C2[i]? = some l → SepLine ((List.range facilities).map (supply 1 i)) l) ∧
    SepLine ((List.range facilities).map (opening 0)) r1 ∧ SepLine ((List.range facilities).map (opening 1)) r2

/-! ### Assignment problems -/

/-- The start of a line, possibly after lines without contents. -/
inductive LineStart : Text → Prop
  | pad (p : Text) : Pad p → LineStart p
  | line (l b : Text) : NoContent l → LineStart b → LineStart (l ++ '\n' :: b)

/-- The rest of a line after the last bracket or comma. -/
def Trailing (t : Text) : Prop := Pad t ∨ ∃ s, t = '#' :: s ∧ '\n' ∉ s

/-- Nothing, or the end of a line and the start of another one. -/
inductive Break : Text → Prop
  | none : Break []
  | line (t b : Text) : Trailing t → LineStart b → Break (t ++ '\n' :: b)

/-- Lists after their opening bracket, separated by commas, with a closing bracket; between the parts a new line may start. -/
inductive BlockRest {α : Type} (Item : α → Text → Prop) : List α → Text → Prop
  | last (x : α) (t b : Text) : Item x t → Break b → BlockRest Item [x] (t ++ (b ++ [']']))
  | more (x : α) (t b b' : Text) (xs : List α) (s : Text) : Item x t → Break b → Break b' → BlockRest Item xs s →
      BlockRest Item (x :: xs) (t ++ (b ++ ',' :: (b' ++ s)))

/-- A list of items. -/
def Block {α : Type} (Item : α → Text → Prop) (xs : List α) (t : Text) : Prop :=
  ∃ b r, t = '[' :: (b ++ r) ∧ Break b ∧ BlockRest Item xs r

/-- The end of the file. -/
def FileEnd (t : Text) : Prop := Trailing t ∨ ∃ s L, t = s ++ '\n' :: unlines L ∧ Trailing s ∧ ∀ l ∈ L, NoContent l

/-- An assignment problem in the format of MOO-Library: the numbers of objectives and tasks, and a list of lists of lists: for every
objective, task and agent the cost. -/
def AssignmentFile (nObjs nTasks : Nat) (cost : Nat → Nat → Nat → Nat) (t : Text) : Prop :=
  ∃ L b x e, t = unlines L ++ (b ++ (x ++ e)) ∧ Nums [nObjs, nTasks] L ∧ LineStart b ∧ FileEnd e ∧
    Block (Block ListText) ((List.range nObjs).map fun k => (List.range nTasks).map fun i => (List.range nTasks).map (cost k i)) x

end Problems
end RustSat
