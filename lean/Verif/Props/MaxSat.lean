import Verif.Lemmas.MaxSat
/-
C39: solution-improving search finds an optimal solution.

C39 in full: for every formula in the solver and every objective, the search ends and returns an optimal solution, or
nothing if there is none. This does not hold:
* if the solver has no variables, the search returns cost 0 without asking the solver (`C39_violated_no_vars_unsat`,
  `C39_violated_no_vars_cost`),
* if a literal is listed twice, the search may run forever (`C39_violated_duplicates`),
* variables of the objective that are not in the solver clash with those of the encoding (`C39_violated_unknown_vars`),
* if the solver leaves values open and the objective has complementary literals, the cost is too low
  (`C39_violated_dont_care`),
* literals of weight zero make the generalized totalizer panic (`C39_violated_zero_weight`).
Proved is everything else: the theorems with suffix `_partial` exclude exactly these cases.
-/
namespace RustSat
open Card

namespace MaxSatDemo

/-- A solver that answers something correct. -/
noncomputable def anySolver (cls : ClauseSet) : SolverAnswer :=
  open Classical in if h : ∃ m, ClauseSet.sat m cls then .sat fun v => if h.choose v then .true else .false else .unsat

/-- A correct solver that answers the given values for the clauses `F`. -/
noncomputable def solver (F : ClauseSet) (val : Nat → TernaryVal) (_ : Nat) (cls : ClauseSet) : SolverAnswer :=
  if cls = F then .sat val else anySolver cls

theorem anySolver_correct (mv : Nat) : CorrectSolver mv fun _ => anySolver := by
  intro _ cls
  by_cases h : ∃ m, ClauseSet.sat m cls
  · have e : anySolver cls = .sat fun v => if h.choose v then .true else .false := dif_pos h
    simp only [e]
    refine fun b hb => ⟨h.choose, fun v hv => ?_, h.choose_spec⟩
    have := hb v hv
    cases hc : h.choose v <;> simp [hc] at this <;> simp [this]
  · have e : anySolver cls = .unsat := dif_neg h
    simp only [e]
    exact h

theorem anySolver_total (mv : Nat) : TotalSolver mv fun _ => anySolver := by
  intro _ cls val e v _ hd
  simp only [anySolver] at e
  by_cases h : ∃ m, ClauseSet.sat m cls
  · rw [dif_pos h] at e
    injection e with e
    rw [← e] at hd
    cases hc : h.choose v <;> simp [hc] at hd
  · rw [dif_neg h] at e; cases e

theorem solver_correct {mv : Nat} {F : ClauseSet} {val : Nat → TernaryVal}
    (h : ∀ b, Completes mv val b → ∃ m : Asg, (∀ v, v ≤ mv → m v = b v) ∧ ClauseSet.sat m F) :
    CorrectSolver mv (solver F val) := by
  intro c cls
  unfold solver
  by_cases e : cls = F
  · rw [if_pos e, e]; exact h
  · rw [if_neg e]; exact anySolver_correct mv c cls

theorem solver_here (F : ClauseSet) (val : Nat → TernaryVal) (c : Nat) : solver F val c F = .sat val := if_pos rfl

end MaxSatDemo
open MaxSatDemo

/-- **C39** (part: distinct literals of positive weight whose variables are all known to the solver; solvers leave values
open only if no variable is in the objective in both polarities). With the generalized totalizer, the search returns an
optimal solution and its cost, or nothing if the clauses are unsatisfiable, whatever models a correct solver returns and
in whatever order hash maps are traversed. It needs at most two more calls than the sum of weights. -/
theorem C39_gte_partial (F : ClauseSet) (obj : List (Lit × Nat)) (mv : Nat) (oracle : Nat → ClauseSet → SolverAnswer)
    (order : Nat → Gte → Gte) (hF : ∀ c ∈ F, ∀ l ∈ c, l.var ≤ mv) (hobj : ∀ x ∈ obj, 0 < x.2 ∧ x.1.var ≤ mv)
    (hd : (obj.map (·.1)).Nodup) (horacle : CorrectSolver mv oracle) (hdc : OnePolarity obj ∨ TotalSolver mv oracle)
    (horder : ∀ call e, ∃ buffer, buffer.Perm e.litBuffer ∧ order call e = { e with litBuffer := buffer })
    (fuel : Nat) (hfuel : (obj.map (·.2)).sum + 1 < fuel) :
    IsResult (fun b => ClauseSet.sat b F) (fun b => (wsum b obj : Int))
      (solutionImproving Gte oracle order fuel (some mv) F obj).toInt :=
  solutionImproving_spec hF hobj hd horacle hdc horder fuel hfuel

/-- **C39** (the same part) with the binary adder. -/
theorem C39_adder_partial (F : ClauseSet) (obj : List (Lit × Nat)) (mv : Nat) (oracle : Nat → ClauseSet → SolverAnswer)
    (order : Nat → BinaryAdder → BinaryAdder) (hF : ∀ c ∈ F, ∀ l ∈ c, l.var ≤ mv) (hobj : ∀ x ∈ obj, 0 < x.2 ∧ x.1.var ≤ mv)
    (hd : (obj.map (·.1)).Nodup) (horacle : CorrectSolver mv oracle) (hdc : OnePolarity obj ∨ TotalSolver mv oracle)
    (horder : ∀ call e, ∃ buffer, buffer.Perm e.litBuffer ∧ order call e = { e with litBuffer := buffer })
    (fuel : Nat) (hfuel : (obj.map (·.2)).sum + 1 < fuel) :
    IsResult (fun b => ClauseSet.sat b F) (fun b => (wsum b obj : Int))
      (solutionImproving BinaryAdder oracle order fuel (some mv) F obj).toInt :=
  solutionImproving_spec hF hobj hd horacle hdc horder fuel hfuel

/-- A concrete instance with complementary literals in the objective. -/
example : IsResult (fun b => ClauseSet.sat b [[Lit.pos 0, Lit.pos 1], [Lit.negOf 0, Lit.negOf 1]])
    (fun b => (wsum b [(Lit.pos 0, 3), (Lit.negOf 0, 1), (Lit.pos 1, 2)] : Int))
    (solutionImproving Gte (fun _ => anySolver) (fun _ e => e) 8 (some 1) [[Lit.pos 0, Lit.pos 1], [Lit.negOf 0, Lit.negOf 1]]
      [(Lit.pos 0, 3), (Lit.negOf 0, 1), (Lit.pos 1, 2)]).toInt :=
  C39_gte_partial _ _ 1 _ _ (by decide) (by decide) (by decide) (anySolver_correct 1) (.inr (anySolver_total 1))
    (fun _ e => ⟨e.litBuffer, .refl _, rfl⟩) 8 (by decide)

example : IsResult (fun b => ClauseSet.sat b [[Lit.pos 0, Lit.pos 1], [Lit.negOf 0, Lit.negOf 1]])
    (fun b => (wsum b [(Lit.pos 0, 3), (Lit.negOf 0, 1), (Lit.pos 1, 2)] : Int))
    (solutionImproving BinaryAdder (fun _ => anySolver) (fun _ e => e) 8 (some 1) [[Lit.pos 0, Lit.pos 1], [Lit.negOf 0, Lit.negOf 1]]
      [(Lit.pos 0, 3), (Lit.negOf 0, 1), (Lit.pos 1, 2)]).toInt :=
  C39_adder_partial _ _ 1 _ _ (by decide) (by decide) (by decide) (anySolver_correct 1) (.inr (anySolver_total 1))
    (fun _ e => ⟨e.litBuffer, .refl _, rfl⟩) 8 (by decide)

/-- The same search with a solver that is a program, which ends with the optimum 2. -/
example : solutionImproving Gte (fun call _ => if call = 0 then .sat (fun v => if v = 0 then .true else .false)
      else if call = 1 then .sat (fun v => if v = 0 then .false else .true) else .unsat) (fun _ e => e) 8 (some 1)
      [[Lit.pos 0, Lit.pos 1]] [(Lit.pos 0, 3), (Lit.pos 1, 2)] =
    .done (some (⟨[.false, .true]⟩, 2)) := by rfl

/-- **C39.** Whatever the solver answers, the assignment returned has the values the solver gave in its last positive
answer, and the cost is the sum of weights of the objective literals that are true in it. -/
theorem C39_reported_cost {E : Type} [Encoder E (Lit × Nat)] [BoundUpper E BasicVM] [EnforceUb E]
    (oracle : Nat → ClauseSet → SolverAnswer) (order : Nat → E → E) (fuel : Nat) (mv : Nat) (F : ClauseSet)
    (obj : List (Lit × Nat)) (sol : Assignment) (c : Nat)
    (h : solutionImproving E oracle order fuel (some mv) F obj = .done (some (sol, c))) :
    ∃ call cls val, oracle call cls = .sat val ∧ sol = solution mv val ∧ c = objectiveValue obj sol := by
  have key : ∀ (fuel call : Nat) (enc : E) (vm : BasicVM) (cls : ClauseSet) (s : Option (Assignment × Nat)),
      (∀ x, s = some x → ∃ call cls val, oracle call cls = .sat val ∧ x.1 = solution mv val ∧ x.2 = objectiveValue obj x.1) →
      searchLoop oracle order mv obj fuel call enc vm cls s = .done (some (sol, c)) →
      ∃ call cls val, oracle call cls = .sat val ∧ sol = solution mv val ∧ c = objectiveValue obj sol := by
    intro fuel
    induction fuel with
    | zero => intro _ _ _ _ _ _ h; cases h
    | succ fuel ih =>
      intro call enc vm cls s hs h
      unfold searchLoop at h
      cases hans : oracle call cls with
      | fail => rw [hans] at h; cases h
      | unsat => rw [hans] at h; injection h with h; exact hs _ h
      | sat val =>
        rw [hans] at h
        simp only at h
        by_cases h0 : objectiveValue obj (solution mv val) = 0
        · rw [if_pos h0] at h
          cases h
          exact ⟨call, cls, val, hans, rfl, rfl⟩
        · rw [if_neg h0] at h
          generalize BoundUpper.encodeUb (order call enc) ⟨.incl (objectiveValue obj (solution mv val) - 1),
            .excl (objectiveValue obj (solution mv val))⟩ vm cls = r at h
          cases r with
          | none => cases h
          | some r =>
            simp only at h
            generalize EnforceUb.enforceUb r.1 (objectiveValue obj (solution mv val) - 1) = r' at h
            cases r' with
            | err _ => cases h
            | panic => cases h
            | ok A => exact ih _ _ _ _ _ (fun x hx => by cases hx; exact ⟨call, cls, val, hans, rfl, rfl⟩) h
  exact key fuel 0 _ _ _ none (fun x hx => by cases hx) h

/-- **C39** (violation): without variables, the empty clause is regarded as satisfiable. -/
theorem C39_violated_no_vars_unsat (oracle : Nat → ClauseSet → SolverAnswer) (fuel : Nat) :
    solutionImproving Gte oracle (fun _ e => e) fuel (clsMaxVar [[]]) [[]] [] = .done (some (⟨[]⟩, 0)) ∧
    ¬ ∃ m, ClauseSet.sat m [[]] :=
  ⟨rfl, fun ⟨m, hm⟩ => by obtain ⟨l, hl, -⟩ := hm [] (by simp); cases hl⟩

/-- **C39** (violation): without variables in the solver, the cost is reported as 0, although every assignment has
cost 1. -/
theorem C39_violated_no_vars_cost (oracle : Nat → ClauseSet → SolverAnswer) (fuel : Nat) :
    solutionImproving Gte oracle (fun _ e => e) fuel (clsMaxVar []) [] [(Lit.pos 0, 1), (Lit.negOf 0, 1)] =
      .done (some (⟨[]⟩, 0)) ∧
    ∀ m, wsum m [(Lit.pos 0, 1), (Lit.negOf 0, 1)] = 1 :=
  ⟨rfl, fun m => by simp only [wsum, Lit.holds_pos, Lit.holds_negOf]; cases m 0 <;> rfl⟩

/-- **C39** (violation): with a literal listed twice, the search runs forever. -/
theorem C39_violated_duplicates : ∃ oracle, CorrectSolver 0 oracle ∧ TotalSolver 0 oracle ∧ ∀ fuel,
    solutionImproving Gte oracle (fun _ e => e) fuel (clsMaxVar [[Lit.pos 0]]) [[Lit.pos 0]] [(Lit.pos 0, 1), (Lit.pos 0, 1)] =
      .running := by
  refine ⟨solver [[Lit.pos 0]] fun _ => .true, solver_correct fun b hb => ⟨b, fun _ _ => rfl, ?_⟩, ?_, fun fuel => ?_⟩
  · have := (hb 0 (by simp)).1 rfl
    intro c hc
    rw [List.mem_singleton.1 hc]
    exact ⟨Lit.pos 0, by simp, by simpa using this⟩
  · intro c cls val e v hv
    unfold solver at e
    by_cases h : cls = [[Lit.pos 0]]
    · rw [if_pos h] at e; injection e with e; rw [← e]; exact fun h => by cases h
    · rw [if_neg h] at e; exact anySolver_total 0 c cls val e v hv
  · have key : ∀ (fuel call : Nat) (s : Option (Assignment × Nat)), searchLoop (solver [[Lit.pos 0]] fun _ => .true)
        (fun _ (e : Gte) => e) 0 [(Lit.pos 0, 1), (Lit.pos 0, 1)] fuel call
        (Encoder.new [(Lit.pos 0, 1), (Lit.pos 0, 1)] : Gte) ⟨1⟩ [[Lit.pos 0]] s = .running := by
      intro fuel
      induction fuel with
      | zero => intro _ _; rfl
      | succ fuel ih =>
        intro call s
        unfold searchLoop
        rw [solver_here]
        exact ih (call + 1) (some (⟨[.true]⟩, 2))
    exact key fuel 0 none

/-- **C39** (violation): the variable 2 of the objective is not in the solver, and is also used by the encoding. The
search reports cost 2, although there is a solution of cost 1. -/
theorem C39_violated_unknown_vars : ∃ oracle, CorrectSolver 1 oracle ∧ ∀ fuel,
    solutionImproving Gte oracle (fun _ e => e) (fuel + 2) (clsMaxVar [[Lit.pos 0, Lit.pos 1]]) [[Lit.pos 0, Lit.pos 1]]
      [(Lit.pos 0, 1), (Lit.pos 1, 1), (Lit.pos 2, 1)] = .done (some (⟨[.true, .true]⟩, 2)) ∧
    ∃ m, ClauseSet.sat m [[Lit.pos 0, Lit.pos 1]] ∧ wsum m [(Lit.pos 0, 1), (Lit.pos 1, 1), (Lit.pos 2, 1)] = 1 := by
  refine ⟨solver [[Lit.pos 0, Lit.pos 1]] fun _ => .true, solver_correct fun b hb => ⟨b, fun _ _ => rfl, ?_⟩, fun fuel =>
    ⟨?_, fun v => v = 0, ?_, by decide⟩⟩
  · have := (hb 0 (by simp)).1 rfl
    intro c hc
    rw [List.mem_singleton.1 hc]
    exact ⟨Lit.pos 0, by simp, by simpa using this⟩
  · unfold solutionImproving
    rw [show clsMaxVar _ = some 1 from by decide]
    simp only [BasicVM.fromNextFree]
    unfold searchLoop
    rw [solver_here]
    have e1 : (BoundUpper.encodeUb (Encoder.new [(Lit.pos 0, 1), (Lit.pos 1, 1), (Lit.pos 2, 1)] : Gte) ⟨.incl 1, .excl 2⟩ (⟨2⟩ : BasicVM)
      [[Lit.pos 0, Lit.pos 1]]).map (fun x => (x.2.2, EnforceUb.enforceUb x.1 1)) =
      some ([[Lit.pos 0, Lit.pos 1], [Lit.negOf 1, Lit.pos 2], [Lit.negOf 0, Lit.pos 2], [Lit.negOf 0, Lit.negOf 1, Lit.pos 3],
        [Lit.negOf 2, Lit.negOf 2, Lit.pos 4], [Lit.negOf 3, Lit.pos 4], [Lit.negOf 3, Lit.negOf 2, Lit.pos 5]],
        .ok [Lit.negOf 4]) := by decide
    have hv : objectiveValue [(Lit.pos 0, 1), (Lit.pos 1, 1), (Lit.pos 2, 1)] (solution 1 fun _ => .true) = 2 := by decide
    simp only [hv]
    rw [if_neg (by decide)]
    simp only [Nat.reduceSub]
    generalize (BoundUpper.encodeUb (Encoder.new [(Lit.pos 0, 1), (Lit.pos 1, 1), (Lit.pos 2, 1)] : Gte) ⟨.incl 1, .excl 2⟩ (⟨2⟩ : BasicVM)
      [[Lit.pos 0, Lit.pos 1]]) = r at e1 ⊢
    cases r with
    | none => cases e1
    | some r =>
      obtain ⟨enc, vm, cls⟩ := r
      simp only [Option.map_some, Option.some.injEq, Prod.mk.injEq] at e1
      obtain ⟨rfl, e1⟩ := e1
      simp only [e1]
      unfold searchLoop
      unfold solver
      rw [if_neg (by decide)]
      unfold anySolver
      rw [dif_neg ?_]
      · rfl
      · rintro ⟨m, hm⟩
        have c1 := hm [Lit.pos 0, Lit.pos 1] (by decide)
        have c2 := hm [Lit.negOf 1, Lit.pos 2] (by decide)
        have c3 := hm [Lit.negOf 0, Lit.pos 2] (by decide)
        have c4 := hm [Lit.negOf 2, Lit.negOf 2, Lit.pos 4] (by decide)
        have c5 := hm [Lit.negOf 4] (by decide)
        simp [Clause.sat] at c1 c2 c3 c4 c5
        simp [c5] at c4
        simp [c4] at c2 c3
        simp [c2, c3] at c1
  · intro c hc
    rw [List.mem_singleton.1 hc]
    exact ⟨Lit.pos 0, by simp, by simp⟩

/-- **C39** (violation): if the solver leaves the value of a variable open whose literals are both in the objective, the
cost is reported as 0, although every assignment has cost 1. -/
theorem C39_violated_dont_care : ∃ oracle, CorrectSolver 0 oracle ∧ ∀ fuel,
    solutionImproving Gte oracle (fun _ e => e) (fuel + 1) (clsMaxVar [[Lit.pos 0, Lit.negOf 0]]) [[Lit.pos 0, Lit.negOf 0]]
      [(Lit.pos 0, 1), (Lit.negOf 0, 1)] = .done (some (⟨[.dontCare]⟩, 0)) ∧
    ∀ m, wsum m [(Lit.pos 0, 1), (Lit.negOf 0, 1)] = 1 := by
  refine ⟨solver [[Lit.pos 0, Lit.negOf 0]] fun _ => .dontCare, solver_correct fun b hb => ⟨b, fun _ _ => rfl, ?_⟩, fun fuel => ⟨?_, ?_⟩⟩
  · intro c hc
    rw [List.mem_singleton.1 hc]
    cases h : b 0
    · exact ⟨Lit.negOf 0, by simp, by simp [h]⟩
    · exact ⟨Lit.pos 0, by simp, by simp [h]⟩
  · unfold solutionImproving
    rw [show clsMaxVar _ = some 0 from by decide]
    simp only [BasicVM.fromNextFree]
    unfold searchLoop
    rw [solver_here]
    rfl
  · intro m; simp only [wsum, Lit.holds_pos, Lit.holds_negOf]; cases m 0 <;> rfl

/-- **C39** (violation): with a literal of weight zero in the objective, the search panics. -/
theorem C39_violated_zero_weight : ∃ oracle, CorrectSolver 1 oracle ∧ ∀ fuel,
    solutionImproving Gte oracle (fun _ e => e) (fuel + 1) (clsMaxVar [[Lit.pos 0], [Lit.pos 1]]) [[Lit.pos 0], [Lit.pos 1]]
      [(Lit.pos 0, 1), (Lit.pos 1, 0)] = .panic := by
  refine ⟨solver [[Lit.pos 0], [Lit.pos 1]] fun _ => .true, solver_correct fun b hb => ⟨b, fun _ _ => rfl, ?_⟩, fun fuel => ?_⟩
  · have h0 := (hb 0 (by simp)).1 rfl
    have h1 := (hb 1 (by simp)).1 rfl
    simp [ClauseSet.sat, Clause.sat, h0, h1]
  · unfold solutionImproving
    rw [show clsMaxVar _ = some 1 from by decide]
    simp only [BasicVM.fromNextFree]
    unfold searchLoop
    rw [solver_here]
    rfl

end RustSat
