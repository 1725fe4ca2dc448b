import Verif.Lemmas.OptConv
import Verif.Props.MaxSat
/-
C48: conversions of optimisation instances to hard clauses and soft literals keep solutions and costs.
C40: `solve_maxsat` returns an optimal solution.

C48 in full: for every instance and all objectives. This does not hold:
* constraints are encoded before the variables of objectives are marked as used, so that variables of the encodings clash
  with variables that occur in the objective only (`C48_violated_opt`),
* with multiple objectives, only the variables below the highest one of the objectives are marked as used
  (`C48_violated_multi`).
Missing in the `_partial` theorems are exactly these cases: either the variables of the objectives are known to the
variable manager of the constraints, or there are no constraints to be encoded (only for one objective).

C40 in full: for every instance. This does not hold:
* relaxed soft clauses are added with the wrong polarity of the relaxation literal (`C40_violated_soft_clause`),
* variables of the objective that are not in the constraints clash (`C40_violated_objective_vars`).
The `_partial` theorem covers objectives of soft literals only, with the conditions of C39.
-/
namespace RustSat
open Card MaxSatDemo

section
variable {VM : Type} [ManageVars VM] [LawfulVM VM]

/-- **C48** (part: variables of the objective are known to the variable manager of the constraints, or all constraints
are clauses). `OptInstance::into_hard_cls_soft_lits` does not panic and keeps solutions and costs. -/
theorem C48_opt_partial (i : OptInstance VM) (hk : i.constrs.Known) (hr : ∀ c ∈ i.constrs.pbs, c.Regular) (hw : i.obj.WF)
    (ho : (∀ v, i.obj.hasVar v → v < ManageVars.nUsed i.constrs.vm) ∨ (i.constrs.cards = [] ∧ i.constrs.pbs = [])) :
    ∃ cnf soft vm', i.intoHardClsSoftLits = some (cnf, soft, vm') ∧ ConvertsTo i.constrs [i.obj] cnf [soft] vm' := by
  obtain ⟨cnf, vm1, e, hle, hcl, h1, h2, h3⟩ := intoCnf_spec i.constrs hk hr
  have hlearn := DimacsSpec.learnObj_spec vm1 i.obj
  obtain ⟨cnf', softs, vm', e', hconv⟩ := convert_spec i.constrs [i.obj] (vm2 := OptInstance.learnObj vm1 i.obj) hle hlearn.1 hk
    (fun o h => by rw [List.mem_singleton.1 h]; exact hw)
    (fun o h v hv => by
      rw [List.mem_singleton.1 h] at hv
      rcases ho with ho | ⟨hc, hp⟩
      · exact .inl (ho v hv)
      · rw [hcl hc hp]; omega)
    (fun o h v hv => by rw [List.mem_singleton.1 h] at hv; exact hlearn.2 v hv) h1 h2 h3
  unfold MultiOptInstance.allSoftLits MultiOptInstance.allSoftLits at e'
  unfold OptInstance.intoHardClsSoftLits
  simp only [e]
  generalize i.obj.intoSoftLits (OptInstance.learnObj vm1 i.obj) = r at e' ⊢
  obtain ⟨hards, soft, off, vm2⟩ := r
  simp only [Prod.mk.injEq] at e'
  obtain ⟨rfl, rfl, rfl⟩ := e'
  exact ⟨_, _, _, rfl, hconv⟩

/-- **C48** (part: variables of the objectives are known to the variable manager of the constraints).
`MultiOptInstance::into_hard_cls_soft_lits` does not panic and keeps solutions and the costs of all objectives. -/
theorem C48_multi_partial (i : MultiOptInstance VM) (hk : i.constrs.Known) (hr : ∀ c ∈ i.constrs.pbs, c.Regular)
    (hw : ∀ o ∈ i.objs, o.WF) (ho : ∀ o ∈ i.objs, ∀ v, o.hasVar v → v < ManageVars.nUsed i.constrs.vm) :
    ∃ cnf softs vm', i.intoHardClsSoftLits = some (cnf, softs, vm') ∧ ConvertsTo i.constrs i.objs cnf softs vm' := by
  obtain ⟨cnf, vm1, e, hle, hcl, h1, h2, h3⟩ := intoCnf_spec i.constrs hk hr
  have hinc := LawfulVM.increase vm1 (MultiOptInstance.objMaxVar i.objs)
  have hle2 : ManageVars.nUsed vm1 ≤ ManageVars.nUsed (ManageVars.increaseNextFree vm1 (MultiOptInstance.objMaxVar i.objs)).2 := by
    rw [hinc]; omega
  obtain ⟨cnf', softs, vm', e', hconv⟩ := convert_spec i.constrs i.objs hle hle2 hk hw
    (fun o h v hv => .inl (ho o h v hv)) (fun o h v hv => by have := ho o h v hv; omega) h1 h2 h3
  refine ⟨cnf', softs, vm', ?_, hconv⟩
  unfold MultiOptInstance.intoHardClsSoftLits
  rw [e]
  simp only [e']

end

/-- A cardinality constraint, a soft literal and a soft clause. -/
example : ∃ cnf soft vm', OptInstance.intoHardClsSoftLits
    (⟨⟨[[Lit.pos 0, Lit.pos 3]], [.lb [Lit.pos 0, Lit.pos 1, Lit.negOf 2] 2], [], ⟨4⟩⟩,
      .weighted 1 [(Lit.pos 3, 2)] [([Lit.negOf 0, Lit.pos 1], 1)]⟩ : OptInstance BasicVM) = some (cnf, soft, vm') ∧
    ConvertsTo (⟨[[Lit.pos 0, Lit.pos 3]], [.lb [Lit.pos 0, Lit.pos 1, Lit.negOf 2] 2], [], ⟨4⟩⟩ : SatInstance BasicVM)
      [.weighted 1 [(Lit.pos 3, 2)] [([Lit.negOf 0, Lit.pos 1], 1)]] cnf [soft] vm' :=
  C48_opt_partial _ (by
      rintro v (⟨c, hc, l, hl, rfl⟩ | ⟨c, hc, l, hl, rfl⟩ | ⟨c, hc, _⟩)
      · revert c l; decide
      · have hc' : c = .lb [Lit.pos 0, Lit.pos 1, Lit.negOf 2] 2 := by simpa using hc
        subst hc'
        revert l
        decide
      · cases hc)
    (fun c hc => by cases hc) (by unfold Objective.WF; decide)
    (.inl (by
      rintro v (⟨p, hp, rfl⟩ | ⟨p, hp, l, hl, rfl⟩)
      · revert p; decide
      · revert p l; decide))

/-- The hypotheses of `C48_multi_partial` hold for two objectives. -/
example : ∃ cnf softs vm', MultiOptInstance.intoHardClsSoftLits
    (⟨⟨[[Lit.pos 0, Lit.pos 1]], [], [], ⟨2⟩⟩, [.weighted 0 [] [([Lit.negOf 0, Lit.pos 1], 1)], .unweighted 3 (some 2) [Lit.pos 1] []]⟩ :
      MultiOptInstance BasicVM) = some (cnf, softs, vm') ∧
    ConvertsTo (⟨[[Lit.pos 0, Lit.pos 1]], [], [], ⟨2⟩⟩ : SatInstance BasicVM)
      [.weighted 0 [] [([Lit.negOf 0, Lit.pos 1], 1)], .unweighted 3 (some 2) [Lit.pos 1] []] cnf softs vm' :=
  C48_multi_partial _ (by
      rintro v (⟨c, hc, l, hl, rfl⟩ | ⟨c, hc, _⟩ | ⟨c, hc, _⟩)
      · revert c l; decide
      · cases hc
      · cases hc)
    (fun c hc => by cases hc) (by
      intro o h
      rcases List.mem_cons.1 h with rfl | h
      · unfold Objective.WF; decide
      · rw [List.mem_singleton.1 h]; unfold Objective.WF; decide)
    (by
      intro o h
      rcases List.mem_cons.1 h with rfl | h
      · rintro v (⟨p, hp, rfl⟩ | ⟨p, hp, l, hl, rfl⟩)
        · cases hp
        · revert p l; decide
      · rw [List.mem_singleton.1 h]
        rintro v (⟨p, hp, rfl⟩ | ⟨p, hp, l, hl, rfl⟩)
        · revert p; decide
        · cases hp)

/-- **C48** (violation): the constraints are `x0 + x1 + ¬x2 >= 2`, the only soft literal is `x5`. After the conversion,
`x5` is a variable of the encoding and true in every model, so every model has cost 1, although there are solutions of
cost 0. -/
theorem C48_violated_opt :
    ∃ (i : OptInstance BasicVM) (cnf : ClauseSet) (soft : List (Lit × Nat) × Int) (vm' : BasicVM),
      i.constrs.Known ∧ (∃ a, i.constrs.sat a ∧ i.obj.value a = 0) ∧ i.intoHardClsSoftLits = some (cnf, soft, vm') ∧
      ∀ b, ClauseSet.sat b cnf → soft.2 + wsum b soft.1 = 1 := by
  refine ⟨⟨⟨[], [.lb [Lit.pos 0, Lit.pos 1, Lit.negOf 2] 2], [], ⟨3⟩⟩, .weighted 0 [(Lit.pos 5, 1)] []⟩,
    [[Lit.pos 0, Lit.pos 1, Lit.negOf 3], [Lit.pos 0, Lit.negOf 4], [Lit.pos 1, Lit.negOf 4],
    [Lit.pos 3, Lit.negOf 5], [Lit.pos 4, Lit.negOf 2, Lit.negOf 5], [Lit.pos 5]], ([(Lit.pos 5, 1)], 0), ⟨6⟩, ?_,
    ⟨fun v => v < 2, ?_, by decide⟩, by decide, ?_⟩
  · rintro v (⟨c, hc, _⟩ | ⟨c, hc, l, hl, rfl⟩ | ⟨c, hc, _⟩)
    · cases hc
    · have hc' : c = .lb [Lit.pos 0, Lit.pos 1, Lit.negOf 2] 2 := by simpa using hc
      subst hc'
      revert l
      decide
    · cases hc
  · refine ⟨fun c hc => (by cases hc), ?_, fun c hc => by cases hc⟩
    intro c hc
    rw [List.mem_singleton.1 hc]
    unfold CardConstraint.sat
    decide
  · intro b hb
    obtain ⟨l, hl, h2⟩ := hb [Lit.pos 5] (by simp)
    rw [List.mem_singleton.1 hl, Lit.holds_pos] at h2
    simp [wsum, h2]

/-- **C48** (violation): the relaxation variable of the soft clause `¬x0 ∨ x1` is `x1`. After the conversion every model
has cost 1, although there are solutions of cost 0. -/
theorem C48_violated_multi :
    ∃ (i : MultiOptInstance BasicVM) (o : Objective) (cnf : ClauseSet) (soft : List (Lit × Nat) × Int) (vm' : BasicVM),
      i.constrs.Known ∧ i.objs = [o] ∧ (∃ a, i.constrs.sat a ∧ o.value a = 0) ∧
      i.intoHardClsSoftLits = some (cnf, [soft], vm') ∧
      ∀ b, ClauseSet.sat b cnf → soft.2 + wsum b soft.1 = 1 := by
  refine ⟨⟨⟨[[Lit.pos 0]], [], [], ⟨1⟩⟩, [.weighted 0 [] [([Lit.negOf 0, Lit.pos 1], 1)]]⟩, _,
    [[Lit.pos 0], [Lit.negOf 0, Lit.pos 1, Lit.pos 1]], ([(Lit.pos 1, 1)], 0), ⟨2⟩, ?_, rfl,
    ⟨fun _ => true, ?_, by decide⟩, by rfl, ?_⟩
  · rintro v (⟨c, hc, l, hl, rfl⟩ | ⟨c, hc, _⟩ | ⟨c, hc, _⟩)
    · revert c l; decide
    · cases hc
    · cases hc
  · refine ⟨?_, fun c hc => (by cases hc), fun c hc => by cases hc⟩
    unfold ClauseSet.sat Clause.sat; decide
  · intro b hb
    have h1 := hb [Lit.pos 0] (by simp)
    have h2 := hb [Lit.negOf 0, Lit.pos 1, Lit.pos 1] (by simp)
    simp [Clause.sat] at h1 h2
    simp [h1] at h2
    simp [wsum, h2]

section
variable {VM : Type} [ManageVars VM] [LawfulVM VM]

/-- **C40** (part: objectives of soft literals of positive weight whose variables are known to the constraints and not
higher than all variables of the encoded constraints, which have at least one variable; solvers leave values open only if
no variable is in the objective in both polarities). With solution-improving search, `solve_maxsat` returns an optimal
solution and its cost, or nothing if there are no solutions. -/
theorem C40_partial (i : OptInstance VM) (hk : i.constrs.Known) (hr : ∀ c ∈ i.constrs.pbs, c.Regular)
    (hw : i.obj.WF) (hc : i.obj.nClauses = 0) (hd : (i.obj.litList.map (·.1)).Nodup) (hp : ∀ x ∈ i.obj.litList, 0 < x.2)
    (cnf : ClauseSet) (vm1 : VM) (mv : Nat) (hcnf : i.constrs.intoCnf = some (cnf, vm1)) (hmv : clsMaxVar cnf = some mv)
    (ho : ∀ v, i.obj.hasVar v → v ≤ mv ∧ v < ManageVars.nUsed i.constrs.vm)
    (hov : i.obj.offset + (i.obj.litList.map (·.2)).sum ≤ isizeMax)
    (oracle : Nat → ClauseSet → SolverAnswer) (order : Nat → Gte → Gte)
    (horacle : CorrectSolver mv oracle) (hdc : OnePolarity i.obj.litList ∨ TotalSolver mv oracle)
    (horder : ∀ call e, ∃ buffer, buffer.Perm e.litBuffer ∧ order call e = { e with litBuffer := buffer })
    (fuel : Nat) (hfuel : (i.obj.litList.map (·.2)).sum + 1 < fuel) :
    IsResult (fun b => i.constrs.sat b) (fun b => i.obj.value b) (i.solveMaxsat (solutionImproving Gte oracle order fuel)) :=
  solveMaxsat_spec i hk hr hw hc hd hp hcnf hmv ho hov horacle hdc horder fuel hfuel

end

/-- A cardinality constraint and three soft literals. -/
example : IsResult (fun b => SatInstance.sat b (⟨[], [.lb [Lit.pos 0, Lit.pos 1, Lit.negOf 2] 2], [], ⟨3⟩⟩ : SatInstance BasicVM))
    (fun b => (Objective.weighted (-4) [(Lit.pos 0, 3), (Lit.negOf 2, 1), (Lit.pos 1, 2)] []).value b)
    (OptInstance.solveMaxsat (solutionImproving Gte (fun _ => anySolver) (fun _ e => e) 8)
      (⟨⟨[], [.lb [Lit.pos 0, Lit.pos 1, Lit.negOf 2] 2], [], ⟨3⟩⟩,
        .weighted (-4) [(Lit.pos 0, 3), (Lit.negOf 2, 1), (Lit.pos 1, 2)] []⟩ : OptInstance BasicVM)) :=
  C40_partial _ (by
      rintro v (⟨c, hc, _⟩ | ⟨c, hc, l, hl, rfl⟩ | ⟨c, hc, _⟩)
      · cases hc
      · have hc' : c = .lb [Lit.pos 0, Lit.pos 1, Lit.negOf 2] 2 := by simpa using hc
        subst hc'
        revert l
        decide
      · cases hc)
    (fun c hc => by cases hc) (by unfold Objective.WF; decide) rfl (by decide) (by decide)
    [[Lit.pos 0, Lit.pos 1, Lit.negOf 3], [Lit.pos 0, Lit.negOf 4], [Lit.pos 1, Lit.negOf 4],
    [Lit.pos 3, Lit.negOf 5], [Lit.pos 4, Lit.negOf 2, Lit.negOf 5], [Lit.pos 5]] ⟨6⟩ 5 (by decide) (by decide)
    (by
      rintro v (⟨p, hp, rfl⟩ | ⟨p, hp, _⟩)
      · revert p; decide
      · cases hp)
    (by unfold Objective.offset isizeMax; decide) _ _ (anySolver_correct 5) (.inr (anySolver_total 5))
    (fun _ e => ⟨e.litBuffer, .refl _, rfl⟩) 8 (by decide)

/-- **C40** (violation): the constraints are `x0` and `x1`, the only soft clause is `¬x0 ∨ ¬x1`. `solve_maxsat` may return
cost 0, although every solution has cost 1. -/
theorem C40_violated_soft_clause : ∃ (i : OptInstance BasicVM) (oracle : Nat → ClauseSet → SolverAnswer),
    i.constrs.Known ∧ CorrectSolver 2 oracle ∧ TotalSolver 2 oracle ∧
    (∀ fuel, i.solveMaxsat (solutionImproving Gte oracle (fun _ e => e) (fuel + 1)) =
      .done (some (⟨[.true, .true, .false]⟩, 0))) ∧
    ∀ a, i.constrs.sat a → i.obj.value a = 1 := by
  refine ⟨⟨⟨[[Lit.pos 0], [Lit.pos 1]], [], [], ⟨2⟩⟩, .weighted 0 [] [([Lit.negOf 0, Lit.negOf 1], 1)]⟩,
    solver [[Lit.pos 0], [Lit.pos 1], [Lit.negOf 0, Lit.negOf 1, Lit.negOf 2]] fun v => if v < 2 then .true else .false,
    ?_, solver_correct fun b hb => ⟨b, fun _ _ => rfl, ?_⟩, ?_, fun fuel => ?_, ?_⟩
  · rintro v (⟨c, hc, l, hl, rfl⟩ | ⟨c, hc, _⟩ | ⟨c, hc, _⟩)
    · revert c l; decide
    · cases hc
    · cases hc
  · have h0 := (hb 0 (by simp)).1 rfl
    have h1 := (hb 1 (by simp)).1 rfl
    have h2 := (hb 2 (by simp)).2 rfl
    simp [ClauseSet.sat, Clause.sat, h0, h1, h2]
  · intro c cls val e v hv
    unfold solver at e
    by_cases h : cls = [[Lit.pos 0], [Lit.pos 1], [Lit.negOf 0, Lit.negOf 1, Lit.negOf 2]]
    · rw [if_pos h] at e
      injection e with e
      rw [← e]
      by_cases hv' : v < 2
      · simp [hv']
      · simp [hv']
    · rw [if_neg h] at e; exact anySolver_total 2 c cls val e v hv
  · unfold OptInstance.solveMaxsat
    rw [show SatInstance.intoCnf _ = some ([[Lit.pos 0], [Lit.pos 1]], (⟨2⟩ : BasicVM)) from by decide]
    rw [show Objective.intoSoftCls _ = some ([([Lit.negOf 0, Lit.negOf 1], 1)], 0) from by decide]
    simp only
    rw [show handleSoftCls _ _ _ = ([(Lit.pos 2, 1)], [[Lit.pos 0], [Lit.pos 1], [Lit.negOf 0, Lit.negOf 1, Lit.negOf 2]], ⟨3⟩) from by decide]
    simp only
    rw [show clsMaxVar _ = some 2 from by decide]
    unfold solutionImproving
    simp only
    unfold searchLoop
    rw [solver_here]
    rfl
  · rintro a ⟨ha, -⟩
    have h0 := ha [Lit.pos 0] (by simp)
    have h1 := ha [Lit.pos 1] (by simp)
    simp [Clause.sat] at h0 h1
    simp [Objective.value, wsum, clsCost, h0, h1, Clause.falsified]

/-- **C40** (violation): the variable 2 occurs only in the objective, and is also used by the encoding of the objective.
`solve_maxsat` may return cost 2, although there is a solution of cost 1. -/
theorem C40_violated_objective_vars : ∃ (i : OptInstance BasicVM) (oracle : Nat → ClauseSet → SolverAnswer),
    i.constrs.Known ∧ CorrectSolver 1 oracle ∧
    (∀ fuel, i.solveMaxsat (solutionImproving Gte oracle (fun _ e => e) (fuel + 2)) = .done (some (⟨[.true, .true]⟩, 2))) ∧
    ∃ a, i.constrs.sat a ∧ i.obj.value a = 1 := by
  obtain ⟨oracle, h1, h2⟩ := C39_violated_unknown_vars
  refine ⟨⟨⟨[[Lit.pos 0, Lit.pos 1]], [], [], ⟨2⟩⟩, .weighted 0 [(Lit.pos 0, 1), (Lit.pos 1, 1), (Lit.pos 2, 1)] []⟩, oracle,
    ?_, h1, fun fuel => ?_, fun v => v = 0, ?_, by decide⟩
  · rintro v (⟨c, hc, l, hl, rfl⟩ | ⟨c, hc, _⟩ | ⟨c, hc, _⟩)
    · revert c l; decide
    · cases hc
    · cases hc
  · unfold OptInstance.solveMaxsat
    rw [show SatInstance.intoCnf _ = some ([[Lit.pos 0, Lit.pos 1]], (⟨2⟩ : BasicVM)) from by decide]
    rw [show Objective.intoSoftCls _ = some ([([Lit.negOf 0], 1), ([Lit.negOf 1], 1), ([Lit.negOf 2], 1)], 0) from by decide]
    simp only
    rw [show handleSoftCls _ _ _ = ([(Lit.pos 0, 1), (Lit.pos 1, 1), (Lit.pos 2, 1)], [[Lit.pos 0, Lit.pos 1]], ⟨3⟩) from by decide]
    simp only
    rw [(h2 fuel).1]
    simp only
    rw [if_neg (by unfold isizeMax; decide)]
    rfl
  · refine ⟨?_, fun c hc => (by cases hc), fun c hc => by cases hc⟩
    unfold ClauseSet.sat Clause.sat; decide

end RustSat
