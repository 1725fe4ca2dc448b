import Verif.Model.Propagate
import Verif.Spec.Bindings
/-
Unit propagation.
-/
namespace RustSat

/-- What unit propagation derives from clauses and assumptions. -/
inductive UnitDerives (D : ClauseSet) (A : List Lit) : Lit → Prop where
  | assume {l} : l ∈ A → UnitDerives D A l
  | unit {c l} : c ∈ D → l ∈ c → (∀ k ∈ c, k ≠ l → UnitDerives D A k.neg) → UnitDerives D A l

/-- Unit propagation runs into a contradiction. -/
def UnitConflict (D : ClauseSet) (A : List Lit) : Prop :=
  (∃ c ∈ D, ∀ k ∈ c, UnitDerives D A k.neg) ∨ ∃ l, UnitDerives D A l ∧ UnitDerives D A l.neg

/-- No literal is on the trail together with its negation. -/
def Consistent (T : List Lit) : Prop := ∀ l ∈ T, l.neg ∉ T

/-- All that can be propagated is on the trail, and no clause is false. -/
def Propagated (D : ClauseSet) (T : List Lit) : Prop :=
  (∀ c ∈ D, ∀ l ∈ c, (∀ k ∈ c, k ≠ l → k.neg ∈ T) → l ∈ T) ∧ ∀ c ∈ D, ¬ ∀ k ∈ c, k.neg ∈ T

/-- The function extends the trail by unit propagation, in any order, up to a false clause or as long as possible. -/
structure Propagates (D : ClauseSet) (up : List Lit → List Lit × Option Lit) : Prop where
  extends_ : ∀ T, T <+: (up T).1
  derives : ∀ T, ∀ l ∈ (up T).1, UnitDerives D T l
  consistent : ∀ T, Consistent T → Consistent (up T).1
  done : ∀ T, (up T).2 = none → Propagated D (up T).1
  conflict : ∀ T l, (up T).2 = some l → ∃ c ∈ D, l ∈ c ∧ ∀ k ∈ c, k.neg ∈ (up T).1

/-- The solver before the call: all of level 0 is propagated. `D` are the clauses of the solver. -/
structure PropCheck.Core.Ready (s : PropCheck.Core) (D : ClauseSet) : Prop where
  consistent : Consistent s.trail
  propagated : Propagated D s.trail
  derives : ∀ l ∈ s.trail, UnitDerives D [] l

end RustSat
