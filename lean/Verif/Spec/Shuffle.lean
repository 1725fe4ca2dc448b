import Verif.Model.Shuffle
import Verif.Spec.Dimacs
/-
Specification of shuffling: a bijective renaming of the variables of an instance.
-/
namespace RustSat.ShuffleSpec

/-- `f` renames the variables below `n` among each other, with the inverse `g`, and leaves all others. -/
structure Renaming (n : Nat) (f g : Nat → Nat) : Prop where
  left : ∀ v, g (f v) = v
  right : ∀ v, f (g v) = v
  below : ∀ v, v < n → f v < n
  above : ∀ v, n ≤ v → f v = v

/-- The random choices: permutations of the variables, and of the elements of every vector. -/
structure Random (perm : Nat → List Nat) (sh : Shuffler) : Prop where
  perm : ∀ n, (perm n).Perm (List.range n)
  shuffle : ∀ i {α : Type} (l : List α), (sh i l).Perm l

/-- The formula of a file name: the ending after which a compression ending was removed. -/
def KindOf : ShuffleFileType → Text → Prop
  | .wcnf, e => e = "wcnf".toList
  | .mcnf, e => e = "mcnf".toList
  | .cnf, e => e ≠ "wcnf".toList ∧ e ≠ "mcnf".toList

end RustSat.ShuffleSpec
