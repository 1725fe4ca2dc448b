import Verif.Spec.Operators
import Verif.Props.Atomics
/-
Lemmas for C105.
-/
namespace RustSat
variable {VM : Type} [ManageVars VM]

theorem Clause.sat_nil_op (a : Asg) : ¬ Clause.sat a [] := by rintro ⟨l, h, _⟩; cases h
theorem Clause.sat_cons_op (a : Asg) (l : Lit) (c : Clause) :
    Clause.sat a (l :: c) ↔ l.holds a = true ∨ Clause.sat a c := by simp [Clause.sat]
theorem Clause.sat_append_op (a : Asg) (c d : Clause) :
    Clause.sat a (c ++ d) ↔ Clause.sat a c ∨ Clause.sat a d := by
  simp only [Clause.sat, List.mem_append, or_and_right, exists_or]
theorem ClauseSet.sat_nil_op (a : Asg) : ClauseSet.sat a [] := by rintro c h; cases h
theorem ClauseSet.sat_cons_op (a : Asg) (c : Clause) (f : ClauseSet) :
    ClauseSet.sat a (c :: f) ↔ Clause.sat a c ∧ ClauseSet.sat a f := by simp [ClauseSet.sat]
theorem ClauseSet.sat_append_op (a : Asg) (f g : ClauseSet) :
    ClauseSet.sat a (f ++ g) ↔ ClauseSet.sat a f ∧ ClauseSet.sat a g := by
  simp only [ClauseSet.sat, List.mem_append, or_imp, forall_and]

namespace Operand

theorem not_says (a : Asg) (x z : Operand VM) (h : x.not = some z) : z.says a ↔ ¬ x.says a := by
  cases x <;> simp only [Operand.not, Option.some.injEq, reduceCtorEq] at h <;> subst h <;>
    simp [says, Lit.holds_negOf, Lit.holds_neg]

theorem or_says (a : Asg) (x y z : Operand VM) (h : x.or y = some z) : z.says a ↔ x.says a ∨ y.says a := by
  cases x <;> cases y <;> simp only [Operand.or, Option.some.injEq, reduceCtorEq] at h <;> subst h <;>
    simp [says, Clause.sat_append_op, Clause.sat_cons_op, Clause.sat_nil_op, Lit.holds_pos]

theorem and_says (a : Asg) (x y z : Operand VM) (h : x.and y = some z)
    (hp : ∀ s, y = .inst s → s.cards = [] ∧ s.pbs = []) : z.says a ↔ x.says a ∧ y.says a := by
  cases x <;> cases y <;> simp only [Operand.and, Option.some.injEq, reduceCtorEq] at h <;> subst h <;>
    simp [says, Cnf.join, Cnf.addClause, SatInstance.sat, SatInstance.addClause, SatInstance.extendClauses,
      SatInstance.extend, ClauseSet.sat_append_op, ClauseSet.sat_cons_op, ClauseSet.sat_nil_op,
      Clause.sat_cons_op, Clause.sat_nil_op, Lit.holds_pos]
  case inst.inst s o =>
    obtain ⟨h1, h2⟩ := hp o rfl
    simp only [h1, h2, List.not_mem_nil, false_imp_iff, implies_true, and_true]; exact and_right_comm
  all_goals exact and_right_comm

theorem or_rank (x y z : Operand VM) (h : x.or y = some z) : OpExpr.rank x ≤ 2 ∧ OpExpr.rank y ≤ 2 ∧ OpExpr.rank z = 2 := by
  cases x <;> cases y <;> simp only [Operand.or, Option.some.injEq, reduceCtorEq] at h <;> subst h <;>
    simp [OpExpr.rank]

end Operand

/-- Values of an expression that are instances come from instances on its left spine only. -/
theorem OpExpr.run_inst (e : OpExpr VM) (s : SatInstance VM) (h : e.run = some (.inst s))
    (hp : ∀ t, Operand.inst t ∈ e.vals → t.cards = [] ∧ t.pbs = []) : s.cards = [] ∧ s.pbs = [] := by
  induction e generalizing s with
  | val x => cases h; exact hp s (by simp [vals])
  | not e _ =>
    simp only [run, Option.bind_eq_some_iff] at h
    obtain ⟨x, _, h⟩ := h
    cases x <;> simp [Operand.not] at h
  | or e f _ _ =>
    simp only [run, Option.bind_eq_some_iff] at h
    obtain ⟨x, _, y, _, h⟩ := h
    have := (Operand.or_rank x y _ h).2.2
    simp [rank] at this
  | and e f ihe ihf =>
    simp only [run, Option.bind_eq_some_iff] at h
    obtain ⟨x, hx, y, hy, h⟩ := h
    have he := fun t (ht : x = .inst t) => ihe t (ht ▸ hx) (fun u hu => hp u (by simp [vals, hu]))
    cases x <;> cases y <;> simp only [Operand.and, Option.some.injEq, reduceCtorEq, Operand.inst.injEq] at h <;>
      subst h <;>
      simpa [SatInstance.addClause, SatInstance.extendClauses, SatInstance.extend] using he _ rfl

end RustSat
