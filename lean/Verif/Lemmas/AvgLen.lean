import Verif.Model.AvgLen
import Verif.Spec.AvgLen
/-
Lemmas for C108.
-/
namespace RustSat
namespace AvgLen

theorem totalLits_append (cs : List Clause) (c : Clause) : totalLits (cs ++ [c]) = totalLits cs + c.length := by
  induction cs with
  | nil => simp [totalLits]
  | cons d cs ih => simp only [List.cons_append, totalLits, ih]; omega

theorem step (x n t l : Rat) (hn : n + 1 ≠ 0) (h : x * n = t) : (x * n + l) / (n + 1) * (n + 1) = t + l := by
  rw [Rat.div_mul_cancel hn, h]

theorem cast_succ_ne (n : Nat) : ((n : Nat) : Rat) + 1 ≠ 0 := by
  have h : ((n + 1 : Nat) : Rat) ≠ 0 := by
    intro h
    have := Rat.natCast_inj (a := n + 1) (b := 0) |>.1 (by simpa using h)
    omega
  simpa using h

theorem run_spec (cs : List Clause) (s : Stats) (ds : List Clause) (hn : s.nClauses = ds.length)
    (h : s.avg * (ds.length : Rat) = (totalLits ds : Rat)) :
    (cs.foldl Stats.addClause s).nClauses = (ds ++ cs).length ∧
    (cs.foldl Stats.addClause s).avg * ((ds ++ cs).length : Rat) = (totalLits (ds ++ cs) : Rat) := by
  induction cs generalizing s ds with
  | nil => simpa using ⟨hn, h⟩
  | cons c cs ih =>
    have := ih (s.addClause c) (ds ++ [c]) (by simp [Stats.addClause, Stats.updateAvg, hn]) (by
      have := step s.avg (ds.length : Rat) (totalLits ds : Rat) (c.length : Rat) (cast_succ_ne _) h
      simpa [Stats.addClause, Stats.updateAvg, hn, totalLits_append] using this)
    simpa using this

end AvgLen
end RustSat
