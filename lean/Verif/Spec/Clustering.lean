import Verif.Model.Clustering
import Verif.Spec.Dimacs
/-
Constrained correlation clustering: what the clusterings of objects are, and their costs.
-/
namespace RustSat
namespace Clustering
variable {I : Type} [DecidableEq I]

/-- The identifier occurs in the input. -/
def Occurs (input : List (I × I × Sim)) (x : I) : Prop := ∃ e ∈ input, e.1 = x ∨ e.2.1 = x

/-- The entry is about these two objects, in any order. -/
def About (x y : I) (e : I × I × Sim) : Bool := decide (e.1 = x ∧ e.2.1 = y ∨ e.1 = y ∧ e.2.1 = x)

/-- The similarity of two objects: that of the last entry about them. -/
def simOf (input : List (I × I × Sim)) (x y : I) : Sim := ((input.reverse.find? (About x y)).map (·.2.2)).getD .dontCare

/-- A clustering gives every object a cluster; objects that must be linked are in the same cluster, objects that cannot be linked are
in different ones. -/
def IsClustering (input : List (I × I × Sim)) (cluster : I → Nat) : Prop :=
  ∀ x y, x ≠ y → (simOf input x y = .mustLink → cluster x = cluster y) ∧ (simOf input x y = .cannotLink → cluster x ≠ cluster y)

/-- All pairs of elements of a list, each once. -/
def pairsOf {α : Type} : List α → List (α × α)
  | [] => []
  | x :: l => l.map (fun y => (x, y)) ++ pairsOf l

/-- The cost of a pair for an objective: similar objects in different clusters for objective 0, dissimilar ones in the same cluster
for objective 1. -/
def pairCost (k : Nat) (s : Sim) (together : Bool) : Nat :=
  match s with
  | .similar w => if k = 0 ∧ together = false then w else 0
  | .disSimilar w => if k = 1 ∧ together = true then w else 0
  | _ => 0

/-- The cost of a clustering: the sum over all pairs of objects. -/
def clusterCost (input : List (I × I × Sim)) (objects : List I) (k : Nat) (cluster : I → Nat) : Nat :=
  ((pairsOf objects).map fun p => pairCost k (simOf input p.1 p.2) (decide (cluster p.1 = cluster p.2))).sum

/-- The weights of an input fit machine integers. -/
def WeightsFit (input : List (I × I × Sim)) : Prop :=
  ∀ e ∈ input, ∀ w, e.2.2 = .similar w ∨ e.2.2 = .disSimilar w → w ≤ usizeMax

end Clustering
end RustSat
