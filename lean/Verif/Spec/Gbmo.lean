import Verif.Model.Gbmo
import Verif.Spec.Tools
/-
Specification of splitting objectives: lexicographic optimization.
-/
namespace RustSat
namespace GbmoSpec

/-- The objectives are listed from the least to the most important. `a` is lexicographically better than `b`: in the most
important objective in which they differ, `a` has the smaller value. -/
def LexLt (os : List Objective) (a b : Asg) : Prop :=
  ∃ j : Nat, DimacsSpec.objValue os j a < DimacsSpec.objValue os j b ∧
    ∀ k, j < k → DimacsSpec.objValue os k a = DimacsSpec.objValue os k b

/-- A solution with the smallest cost. -/
def Optimal {VM : Type} (i : OptInstance VM) (a : Asg) : Prop :=
  i.constrs.sat a ∧ ∀ b, i.constrs.sat b → i.obj.value a ≤ i.obj.value b

/-- A lexicographically smallest solution. -/
def LexOptimal {VM : Type} (i : MultiOptInstance VM) (a : Asg) : Prop :=
  i.constrs.sat a ∧ ∀ b, i.constrs.sat b → ¬ LexLt i.objs b a

/-- The total weights that parts of `right` can have are either equal or differ by more than all of `left` weighs. -/
def Separated (left right : List Nat) : Prop :=
  ∀ s t : List Nat, s.Sublist right → t.Sublist right → s.sum < t.sum → s.sum + left.sum < t.sum

/-- The soft constraints of an objective as weighted clauses. -/
def softs (o : Objective) : List (Clause × Nat) := o.iterSoftCls

/-- No soft constraint has weight zero, and an objective with weights has a soft constraint. -/
def Proper (o : Objective) : Prop :=
  (∀ p ∈ o.iterSoftCls, 0 < p.2) ∧ ∀ off sl sc, o = .weighted off sl sc → o.iterSoftCls ≠ []

/-- The greatest common divisor of the weights. -/
def weightGcd (l : List (Clause × Nat)) : Nat := l.foldr (fun p g => Nat.gcd p.2 g) 0

/-- The weights of clauses. -/
def weights (l : List (Clause × Nat)) : List Nat := l.map Prod.snd

/-- The clauses with their weights multiplied by `m`. -/
def scale (m : Nat) (l : List (Clause × Nat)) : List (Clause × Nat) := l.map fun p => (p.1, m * p.2)

/-- The greatest common divisor of numbers. -/
def listGcd (l : List Nat) : Nat := l.foldr Nat.gcd 0

/-- For ascending weights: each weight is larger than the sum of all smaller ones. -/
def Boolean (ws : List Nat) : Prop :=
  ∀ j, j + 1 < ws.length → ws.getD j 0 < ws.getD (j + 1) 0 → (ws.take (j + 1)).sum < ws.getD (j + 1) 0

/-- Where the algorithms are documented to split ascending weights: after position `i`. -/
def IsCut (alg : Gbmo.SplitAlg) (ws : List Nat) (i : Nat) : Prop :=
  match alg with
  | .bmo => Boolean ws ∧ ws.getD i 0 < ws.getD (i + 1) 0
  | .gcd => (ws.take (i + 1)).sum < listGcd (ws.drop (i + 1))
  | .gbmo => Separated (ws.take (i + 1)) (ws.drop (i + 1))

/-- `parts` is `ws` cut into non-empty parts after exactly the positions in `cut`. -/
def CutAt (cut : Nat → Prop) (ws : List Nat) (parts : List (List Nat)) : Prop :=
  parts.flatten = ws ∧ (∀ p ∈ parts, p ≠ []) ∧
  ∀ i, i + 1 < ws.length → (cut i ↔ ∃ front back : List (List Nat), parts = front ++ back ∧ front.flatten.length = i + 1)

/-- The objectives have the weights of the parts, divided by their multipliers. -/
def HasParts (r : List (Objective × Gbmo.ObjStats)) (parts : List (List Nat)) : Prop :=
  r.length = parts.length ∧ ∀ (k : Nat) p ws, r[k]? = some p → parts[k]? = some ws →
    (weights (scale p.2.multiplier (softs p.1))).Perm ws

end GbmoSpec
end RustSat
