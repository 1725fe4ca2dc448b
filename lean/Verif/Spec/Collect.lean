import Verif.Model.Collect
/-
What iterators promise by `size_hint`.
-/
namespace RustSat.Collect

/-- The bounds are right for whatever remains (the contract of `Iterator::size_hint`). -/
structure ClauseIter.Sound (it : ClauseIter) : Prop where
  lower : ∀ rest, rest <:+ it.items → it.lower rest ≤ rest.length
  upper : ∀ u, it.upper it.items = some u → it.items.length ≤ u

end RustSat.Collect
