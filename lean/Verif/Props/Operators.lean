import Verif.Lemmas.Operators
/-
C105: formulas built with operators mean what they say.
-/
namespace RustSat
variable {VM : Type} [ManageVars VM]

/-- **C105.** An expression compiles iff the types of its operands allow it, and its value then has the type
that the expression has. -/
theorem C105_types (e : OpExpr VM) : e.run.map OpExpr.rank = e.type := by
  induction e with
  | val x => rfl
  | not e ih =>
    simp only [OpExpr.run, OpExpr.type, ← ih]
    cases e.run with
    | none => rfl
    | some x => cases x <;> rfl
  | or e f ih jh =>
    simp only [OpExpr.run, OpExpr.type, ← ih, ← jh]
    cases e.run <;> cases f.run
    case some.some x y => cases x <;> cases y <;> rfl
    all_goals rfl
  | and e f ih jh =>
    simp only [OpExpr.run, OpExpr.type, ← ih, ← jh]
    cases e.run <;> cases f.run
    case some.some x y => cases x <;> cases y <;> rfl
    all_goals rfl

/-- **C105**, for expressions without an instance with cardinality or pseudo-Boolean constraints on the right
of an `&`: the value of the expression is satisfied by exactly the assignments that satisfy the Boolean
reading of the expression. Without the restriction it fails, see `C105_violated_right`. -/
theorem C105_means_partial (e : OpExpr VM) (x : Operand VM) (h : e.run = some x) (hp : e.plainRight) (a : Asg) :
    x.says a ↔ e.says a := by
  induction e generalizing x with
  | val y => cases h; rfl
  | not e ih =>
    simp only [OpExpr.run, Option.bind_eq_some_iff] at h
    obtain ⟨y, hy, h⟩ := h
    rw [Operand.not_says a y x h, ih y hy hp, OpExpr.says]
  | or e f ih jh =>
    simp only [OpExpr.run, Option.bind_eq_some_iff] at h
    obtain ⟨y, hy, z, hz, h⟩ := h
    rw [Operand.or_says a y z x h, ih y hy hp.1, jh z hz hp.2, OpExpr.says]
  | and e f ih jh =>
    simp only [OpExpr.run, Option.bind_eq_some_iff] at h
    obtain ⟨y, hy, z, hz, h⟩ := h
    rw [Operand.and_says a y z x h (fun s hs => f.run_inst s (hs ▸ hz) hp.2.2), ih y hy hp.1, jh z hz hp.2.1,
      OpExpr.says]

/-- **C105.** Expressions without instances mean what they say. -/
theorem C105_formulas (e : OpExpr VM) (x : Operand VM) (h : e.run = some x)
    (hn : ∀ s, Operand.inst s ∉ e.vals) (a : Asg) : x.says a ↔ e.says a := by
  refine C105_means_partial e x h ?_ a
  clear h
  induction e with
  | val y => trivial
  | not e ih => exact ih hn
  | or e f ih jh =>
    exact ⟨ih fun s hs => hn s (by simp [OpExpr.vals, hs]), jh fun s hs => hn s (by simp [OpExpr.vals, hs])⟩
  | and e f ih jh =>
    exact ⟨ih fun s hs => hn s (by simp [OpExpr.vals, hs]), jh fun s hs => hn s (by simp [OpExpr.vals, hs]),
      fun s hs => absurd (by simp [OpExpr.vals, hs]) (hn s)⟩

namespace OpDemo
/-- `(x0 | !x1) & x2 & (!!x3 | (x4 | x5))`. -/
def expr : OpExpr BasicVM :=
  .and (.and (.or (.val (.var 0)) (.not (.val (.var 1)))) (.val (.var 2)))
    (.or (.not (.not (.val (.var 3)))) (.or (.val (.var 4)) (.val (.var 5))))
/-- An instance with the cardinality constraint `x0 >= 1`. -/
def inst : SatInstance BasicVM := { cnf := [], cards := [.lb [Lit.pos 0] 1], pbs := [], vm := ⟨1⟩ }
/-- `empty & inst`. -/
def lost : OpExpr BasicVM := .and (.val (.inst { cnf := [], cards := [], pbs := [], vm := ⟨0⟩ })) (.val (.inst inst))
end OpDemo

/-- Non-vacuity: a formula with variables, literals, clauses and both connectives. -/
example : OpDemo.expr.run = some (.cnf [[Lit.pos 0, Lit.negOf 1], [Lit.pos 2], [Lit.pos 3, Lit.pos 4, Lit.pos 5]]) ∧
    (∀ s, Operand.inst s ∉ OpDemo.expr.vals) ∧ OpDemo.expr.type = some 3 := by
  refine ⟨rfl, ?_, rfl⟩
  intro s; simp [OpDemo.expr, OpExpr.vals]
/-- Non-vacuity: an instance with a cardinality constraint on the left. -/
example : (OpExpr.and (.val (.inst OpDemo.inst)) OpDemo.expr).plainRight ∧
    (OpExpr.and (.val (.inst OpDemo.inst)) OpDemo.expr).type = some 4 := by
  refine ⟨?_, rfl⟩
  simp [OpExpr.plainRight, OpDemo.expr, OpExpr.vals]
/-- Non-vacuity: negating a clause does not compile. -/
example : (OpExpr.not (.or (.val (.var 0)) (.val (.var 1))) : OpExpr BasicVM).run = none := rfl

/-- C105 is violated: `a & b` of instances drops the cardinality constraint of `b`, so that the value is
satisfied although the expression is not. -/
theorem C105_violated_right : ∃ x, OpDemo.lost.run = some x ∧ x.says (fun _ => false) ∧
    ¬ OpDemo.lost.says (fun _ => false) := by
  refine ⟨_, rfl, ?_, ?_⟩
  · simp [Operand.says, SatInstance.sat, SatInstance.extend, Cnf.join, ClauseSet.sat, OpDemo.inst]
  · simp [OpDemo.lost, OpDemo.inst, OpExpr.says, Operand.says, SatInstance.sat, CardConstraint.sat, countTrue,
      Lit.holds_pos]

end RustSat
