import Verif.Lemmas.AvgLen
/-
C108: the average clause length in the statistics of solvers.
-/
namespace RustSat
namespace AvgLen

/-- **C108.** After adding any clauses, the number of clauses is the number of calls, and the average clause length
times this number is the number of literals in all clauses: it is their mean length. -/
theorem C108_mean_partial (cs : List Clause) :
    (cs.foldl Stats.addClause .default).nClauses = cs.length ∧
    (cs.foldl Stats.addClause .default).avg * (cs.length : Rat) = (totalLits cs : Rat) := by
  simpa using run_spec cs .default [] rfl (by simp [Stats.default, totalLits])

/-- **C108**, for BatSat: if the solver reports as many clauses as were added, the average is the mean length. -/
theorem C108_batsat_partial (count : List Clause → Nat) (hc : ∀ cs, count cs = cs.length) (cs : List Clause) :
    (cs.foldl (batsatAdd count) ([], 0)).1 = cs ∧
    (cs.foldl (batsatAdd count) ([], 0)).2 * (cs.length : Rat) = (totalLits cs : Rat) := by
  have key : ∀ (cs ds : List Clause) (x : Rat), x * (ds.length : Rat) = (totalLits ds : Rat) →
      (cs.foldl (batsatAdd count) (ds, x)).1 = ds ++ cs ∧
      (cs.foldl (batsatAdd count) (ds, x)).2 * ((ds ++ cs).length : Rat) = (totalLits (ds ++ cs) : Rat) := by
    intro cs
    induction cs with
    | nil => intro ds x h; simpa using h
    | cons c cs ih =>
      intro ds x h
      have := ih (ds ++ [c]) _ (by
        have := step x (ds.length : Rat) (totalLits ds : Rat) (c.length : Rat) (cast_succ_ne _) h
        simpa [totalLits_append] using this)
      simpa [List.foldl, batsatAdd, hc] using this
  simpa using key cs [] 0 (by simp [totalLits])

/-- Non-vacuity: three clauses of lengths 1, 2 and 3. -/
example : ([[Lit.pos 0], [Lit.pos 0, Lit.pos 1], [Lit.pos 0, Lit.pos 1, Lit.pos 2]].foldl Stats.addClause .default) = ⟨3, 2⟩ := by
  simp [Stats.addClause, Stats.updateAvg, Stats.default] <;> grind
/-- Non-vacuity: a solver that counts all clauses. -/
example : ∀ cs : List Clause, List.length cs = cs.length := fun _ => rfl

/-- The condition of `C108_batsat_partial` is needed: for a solver that keeps unit clauses apart and does not count
them, the average of `x0` and `x0 | x1` is 2 instead of 3/2. -/
theorem C108_batsat_units :
    ([[Lit.pos 0], [Lit.pos 0, Lit.pos 1]].foldl (batsatAdd fun cs => (cs.filter fun c => c.length > 1).length) ([], 0)).2 = 2 ∧
    totalLits [[Lit.pos 0], [Lit.pos 0, Lit.pos 1]] = 3 := by
  simp [batsatAdd, totalLits] <;> grind

end AvgLen
end RustSat
