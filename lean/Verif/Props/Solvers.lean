import Verif.Spec.Solvers
import Verif.Props.SolverOutput
import Verif.Props.Dimacs
/-
C56: the simulator turns any solver that can be used once into an incremental solver.
C57: solvers called as external programs.

C56 in full: for all histories of operations, including those in which an operation failed, e.g., because the wrapped
solver ran out of memory. This does not hold: after a failure, assumptions may remain in the solver
(`C56_violated_assumptions_remain`), and clauses may be missing (`C56_violated_clauses_missing`). The statistics count a
query answered from memory not at all (`C56_violated_count`), and the highest variable of a solver with the empty clause
is 0 (`C56_violated_max_var`). The `_partial` theorems are about all histories of successful operations.
-/
namespace RustSat
open Dimacs DimacsSpec OutputSpec Text P

/-! ### Simulation of incremental solvers -/

section
variable {S : Type} [Solve S] [LawfulSolve S]

theorem addCnf_holds {s s' : S} {F G : ClauseSet} (h : LawfulSolve.holds s F) (e : addCnf s G = (some (), s')) :
    LawfulSolve.holds s' (F ++ G) := by
  induction G generalizing s F with
  | nil =>
    injection e with _ e
    rw [List.append_nil, ← e]; exact h
  | cons c G ih =>
    unfold addCnf at e
    generalize hr : Solve.addClause s c = r at e
    obtain ⟨r1, r2⟩ := r
    cases r1 with
    | none => simp at e
    | some u =>
      have := ih (LawfulSolve.add h hr) e
      rwa [List.append_assoc] at this

/-- The clauses in the wrapped solver are those of the simulator in the state `init`, and the results of the last query
are right in the other states. -/
structure SimInv (i : Incremental S) (F : ClauseSet) : Prop where
  clauses : i.clauses = F
  init : i.state = .init → LawfulSolve.holds i.solver F
  sat : i.state = .sat → GivesModel i.litVal F
  unsat : ∀ core, i.state = .unsat core → ∀ m, ClauseSet.sat m F → Clause.sat m core

theorem restart_inv {i i' : Incremental S} (e : i.restart = (some (), i')) :
    LawfulSolve.holds (S := S) i'.solver i.clauses ∧ i'.state = i.state ∧ i'.clauses = i.clauses ∧ i'.stats = i.stats := by
  unfold Incremental.restart at e
  generalize hr : addCnf (S := S) (Solve.init i.inits) i.clauses = r at e
  obtain ⟨r1, r2⟩ := r
  injection e with e1 e2
  simp only at e1
  subst e1
  subst e2
  exact ⟨addCnf_holds (S := S) (LawfulSolve.init i.inits) hr, rfl, rfl, rfl⟩

/-- The part of the clauses without the assumptions. -/
theorem GivesModel.append {val : Lit → Option TernaryVal} {F G : ClauseSet} (h : GivesModel val (F ++ G)) :
    GivesModel val F :=
  ⟨h.1, fun b hb c hc => h.2 b hb c (List.mem_append_left _ hc)⟩

theorem core_sat {F : ClauseSet} {A : List Lit} (h : Unsatisfiable (F ++ A.map fun l => [l])) (m : Asg)
    (hm : ClauseSet.sat m F) : Clause.sat m (A.map Lit.neg) := by
  by_cases hA : ∃ l ∈ A, l.holds m = false
  · obtain ⟨l, hl, h⟩ := hA
    exact ⟨l.neg, List.mem_map_of_mem hl, by rw [Lit.holds_neg, h]; rfl⟩
  · refine absurd ⟨m, ?_⟩ h
    intro c hc
    rcases List.mem_append.1 hc with hc | hc
    · exact hm c hc
    · obtain ⟨l, hl, rfl⟩ := List.mem_map.1 hc
      refine ⟨l, by simp, ?_⟩
      cases hlv : l.holds m with
      | true => rfl
      | false => exact absurd ⟨l, hl, hlv⟩ hA

theorem query_inv {i i' : Incremental S} {F : ClauseSet} {A : List Lit} {r : SolverResult}
    (h : LawfulSolve.holds i.solver (F ++ A.map fun l => [l])) (hc : i.clauses = F)
    (e : i.query (A.map Lit.neg) = (some r, i')) :
    SimInv i' F ∧ (r = .sat → i'.state = .sat ∧ GivesModel i'.litVal (F ++ A.map fun l => [l])) ∧
    (r = .unsat → i'.state = .unsat (A.map Lit.neg) ∧ Unsatisfiable (F ++ A.map fun l => [l])) ∧
    (r = .interrupted → i'.state = .unknown) := by
  unfold Incremental.query at e
  generalize hr : Solve.solve i.solver = q at e
  obtain ⟨r1, s'⟩ := q
  cases r1 with
  | none => cases e
  | some r1 =>
    injection e with e1 e2
    injection e1 with e1
    subst e1
    cases r1 with
    | sat =>
      have hm := LawfulSolve.solveSat h hr
      subst e2
      exact ⟨⟨hc, (fun h => by cases h), fun _ => GivesModel.append hm, (fun _ h => by cases h)⟩,
        fun _ => ⟨rfl, hm⟩, (fun h => by cases h), (fun h => by cases h)⟩
    | unsat =>
      have hm := LawfulSolve.solveUnsat h hr
      subst e2
      refine ⟨⟨hc, (fun h => by cases h), (fun h => by cases h), fun core h => ?_⟩, (fun h => by cases h), fun _ => ⟨rfl, hm⟩, (fun h => by cases h)⟩
      injection h with h
      subst h
      exact core_sat hm
    | interrupted =>
      subst e2
      exact ⟨⟨hc, (fun h => by cases h), (fun h => by cases h), (fun _ h => by cases h)⟩, (fun h => by cases h), (fun h => by cases h), fun _ => rfl⟩

theorem solve_inv {i i' : Incremental S} {F : ClauseSet} {r : SolverResult} (h : SimInv i F) (e : i.solve = (some r, i')) :
    SimInv i' F ∧ (r = .sat → i'.state = .sat ∧ GivesModel i'.litVal F) ∧
    (r = .unsat → i'.state = .unsat [] ∧ Unsatisfiable F) ∧ (r = .interrupted → i'.state = .unknown) := by
  have hq : ∀ {j : Incremental S}, LawfulSolve.holds j.solver F → j.clauses = F → j.query [] = (some r, i') →
      SimInv i' F ∧ (r = .sat → i'.state = .sat ∧ GivesModel i'.litVal F) ∧
      (r = .unsat → i'.state = .unsat [] ∧ Unsatisfiable F) ∧ (r = .interrupted → i'.state = .unknown) := by
    intro j hj hc e
    have := query_inv (A := []) (by simpa using hj) hc e
    simpa using this
  have hrs : ∀ {j : Incremental S}, i.restart = (some (), j) → j.query [] = (some r, i') →
      SimInv i' F ∧ (r = .sat → i'.state = .sat ∧ GivesModel i'.litVal F) ∧
      (r = .unsat → i'.state = .unsat [] ∧ Unsatisfiable F) ∧ (r = .interrupted → i'.state = .unknown) := by
    intro j hj e
    obtain ⟨h1, -, h3, -⟩ := restart_inv hj
    exact hq (h.clauses ▸ h1) (h3.trans h.clauses) e
  unfold Incremental.solve at e
  cases hs : i.state with
  | init =>
    rw [hs] at e
    exact hq (h.init hs) h.clauses e
  | sat =>
    rw [hs] at e
    injection e with e1 e2
    injection e1 with e1
    subst e1 e2
    exact ⟨h, fun _ => ⟨hs, h.sat hs⟩, (fun h => by cases h), (fun h => by cases h)⟩
  | unknown =>
    rw [hs] at e
    simp only at e
    generalize hr : i.restart = q at e
    obtain ⟨q1, q2⟩ := q
    cases q1 with
    | none => cases e
    | some u => exact hrs hr e
  | unsat core =>
    rw [hs] at e
    cases core with
    | nil =>
      injection e with e1 e2
      injection e1 with e1
      subst e1 e2
      refine ⟨h, (fun h => by cases h), fun _ => ⟨hs, ?_⟩, (fun h => by cases h)⟩
      rintro ⟨m, hm⟩
      obtain ⟨l, hl, -⟩ := h.unsat _ hs m hm
      cases hl
    | cons l core =>
      simp only at e
      generalize hr : i.restart = q at e
      obtain ⟨q1, q2⟩ := q
      cases q1 with
      | none => cases e
      | some u => exact hrs hr e

theorem solveAssumps_inv {i i' : Incremental S} {F : ClauseSet} {A : List Lit} {r : SolverResult} (h : SimInv i F)
    (e : i.solveAssumps A = (some r, i')) :
    SimInv i' F ∧ (r = .sat → i'.state = .sat ∧ GivesModel i'.litVal (F ++ A.map fun l => [l])) ∧
    (r = .unsat → i'.state = .unsat (A.map Lit.neg) ∧ Unsatisfiable (F ++ A.map fun l => [l])) ∧
    (r = .interrupted → i'.state = .unknown) := by
  unfold Incremental.solveAssumps at e
  have key : ∀ {j : Incremental S}, LawfulSolve.holds j.solver F → j.clauses = F →
      (match addCnf j.solver (A.map fun l => [l]) with
        | (none, s) => (none, { j with solver := s })
        | (some (), s) => Incremental.query { j with solver := s } (A.map Lit.neg)) = (some r, i') →
      SimInv i' F ∧ (r = .sat → i'.state = .sat ∧ GivesModel i'.litVal (F ++ A.map fun l => [l])) ∧
      (r = .unsat → i'.state = .unsat (A.map Lit.neg) ∧ Unsatisfiable (F ++ A.map fun l => [l])) ∧
      (r = .interrupted → i'.state = .unknown) := by
    intro j hj hc e
    generalize hr : addCnf j.solver (A.map fun l => [l]) = q at e
    obtain ⟨q1, q2⟩ := q
    cases q1 with
    | none => cases e
    | some u => exact query_inv (i := { j with solver := q2 }) (addCnf_holds hj hr) hc e
  by_cases hs : i.state = .init
  · rw [if_pos hs] at e
    exact key (h.init hs) h.clauses e
  · rw [if_neg hs] at e
    generalize hr : i.restart = q at e
    obtain ⟨q1, q2⟩ := q
    cases q1 with
    | none => cases e
    | some u =>
      obtain ⟨h1, -, h3, -⟩ := restart_inv hr
      exact key (h.clauses ▸ h1) (h3.trans h.clauses) e

theorem addClause_inv {i i' : Incremental S} {F : ClauseSet} {c : Clause} (h : SimInv i F)
    (e : i.addClause c = (some (), i')) :
    SimInv i' (F ++ [c]) ∧ i'.state = .init ∧
    i'.stats = { i.stats with nClauses := i.stats.nClauses + 1, maxVar := Incremental.updateMaxVar i.stats.maxVar c } := by
  unfold Incremental.addClause at e
  have key : ∀ {j : Incremental S}, LawfulSolve.holds j.solver F → j.clauses = F → j.state = .init →
      (match Solve.addClause j.solver c with
        | (none, s) => (none, { j with solver := s })
        | (some (), s) => (some (), { j with solver := s, clauses := j.clauses ++ [c] })) = (some (), i') →
      SimInv i' (F ++ [c]) ∧ i'.state = .init ∧ i'.stats = j.stats := by
    intro j hj hc hs e
    generalize hr : Solve.addClause j.solver c = q at e
    obtain ⟨q1, q2⟩ := q
    cases q1 with
    | none => cases e
    | some u =>
      injection e with _ e
      subst e
      refine ⟨⟨by simp [hc], fun _ => LawfulSolve.add hj hr, fun h => ?_, fun _ h => ?_⟩, hs, rfl⟩
      · exact absurd (hs.symm.trans h) (fun h => by cases h)
      · exact absurd (hs.symm.trans h) (fun h => by cases h)
  by_cases hs : i.state = .init
  · simp only [if_pos hs] at e
    exact key (j := { i with stats := { i.stats with nClauses := i.stats.nClauses + 1, maxVar := Incremental.updateMaxVar i.stats.maxVar c } })
      (h.init hs) h.clauses hs e
  · simp only [if_neg hs] at e
    generalize hr : Incremental.restart (S := S) _ = q at e
    obtain ⟨q1, q2⟩ := q
    cases q1 with
    | none => cases e
    | some u =>
      obtain ⟨h1, h2, h3, h4⟩ := restart_inv hr
      obtain ⟨g1, g2, g3⟩ := key (h.clauses ▸ h1) (h3.trans h.clauses) h2 e
      exact ⟨g1, g2, g3.trans h4⟩

theorem SimReach.inv {i : Incremental S} {F : ClauseSet} (h : SimReach i F) : SimInv i F := by
  induction h with
  | new => exact ⟨rfl, fun _ => LawfulSolve.init (S := S) 0, (fun h => by cases h), (fun _ h => by cases h)⟩
  | add _ e ih => exact (addClause_inv ih e).1
  | solve _ e ih => exact (solve_inv ih e).1
  | assumps _ e ih => exact (solveAssumps_inv ih e).1

/-- **C56** (part: all operations so far succeeded). After any history of adding clauses and queries with and without
assumptions, `solve` says `Sat` only if the clauses added so far are satisfiable, and then `lit_val` returns the values of
a model; it says `Unsat` only if they are unsatisfiable, and then the core is empty. -/
theorem C56_solve_partial {i i' : Incremental S} {F : ClauseSet} {r : SolverResult} (h : SimReach i F)
    (e : i.solve = (some r, i')) :
    (r = .sat → GivesModel i'.litVal F) ∧ (r = .unsat → Unsatisfiable F ∧ i'.core = .ok []) := by
  obtain ⟨-, h1, h2, -⟩ := solve_inv h.inv e
  refine ⟨fun hr => (h1 hr).2, fun hr => ⟨(h2 hr).2, ?_⟩⟩
  unfold Incremental.core
  rw [(h2 hr).1]

/-- **C56** (part: all operations so far succeeded). The same with assumptions: after `Sat`, the values are those of a
model that satisfies the assumptions too, after `Unsat`, the core is a clause of negated assumptions that follows from the
clauses. -/
theorem C56_assumps_partial {i i' : Incremental S} {F : ClauseSet} {A : List Lit} {r : SolverResult} (h : SimReach i F)
    (e : i.solveAssumps A = (some r, i')) :
    (r = .sat → GivesModel i'.litVal (F ++ A.map fun l => [l])) ∧
    (r = .unsat → Unsatisfiable (F ++ A.map fun l => [l]) ∧
      ∃ core, i'.core = .ok core ∧ (∀ l ∈ core, l.neg ∈ A) ∧ ∀ m, ClauseSet.sat m F → Clause.sat m core) := by
  obtain ⟨hi, h1, h2, -⟩ := solveAssumps_inv h.inv e
  refine ⟨fun hr => (h1 hr).2, fun hr => ⟨(h2 hr).2, _, ?_, ?_, hi.unsat _ (h2 hr).1⟩⟩
  · unfold Incremental.core
    rw [(h2 hr).1]
  · intro l hl
    obtain ⟨l', hl', rfl⟩ := List.mem_map.1 hl
    rw [Lit.neg_neg]; exact hl'

/-- **C56.** Adding clauses forgets the results of queries: a core is available exactly after an unsatisfiable query with
nothing added since, and the number of clauses is counted. -/
theorem C56_core {i i' : Incremental S} {F : ClauseSet} (h : SimReach i F) :
    (∀ c, i.addClause c = (some (), i') → i'.core = .error .input) ∧
    (∀ r, i.solve = (some r, i') → ((∃ core, i'.core = .ok core) ↔ r = .unsat)) ∧
    (∀ A r, i.solveAssumps A = (some r, i') → ((∃ core, i'.core = .ok core) ↔ r = .unsat)) := by
  refine ⟨fun c e => ?_, fun r e => ?_, fun A r e => ?_⟩
  · unfold Incremental.core; rw [(addClause_inv h.inv e).2.1]; rfl
  · obtain ⟨-, h1, h2, h3⟩ := solve_inv h.inv e
    unfold Incremental.core
    cases r with
    | sat => rw [(h1 rfl).1]; simp
    | unsat => rw [(h2 rfl).1]; simp
    | interrupted => rw [h3 rfl]; simp
  · obtain ⟨-, h1, h2, h3⟩ := solveAssumps_inv h.inv e
    unfold Incremental.core
    cases r with
    | sat => rw [(h1 rfl).1]; simp
    | unsat => rw [(h2 rfl).1]; simp
    | interrupted => rw [h3 rfl]; simp

theorem addCnf_total [TotalSolve S] {s : S} {F G : ClauseSet} (h : LawfulSolve.holds s F) : (addCnf s G).1 = some () := by
  induction G generalizing s F with
  | nil => rfl
  | cons c G ih =>
    unfold addCnf
    have ht := TotalSolve.add h (c := c)
    generalize hr : Solve.addClause s c = q at ht
    obtain ⟨q1, q2⟩ := q
    simp only at ht
    subst ht
    exact ih (LawfulSolve.add h hr)

/-- **C56.** If the wrapped solver never fails when it is used once, then the operations of the simulator never fail. -/
theorem C56_no_failure [TotalSolve S] {i : Incremental S} {F : ClauseSet} (h : SimReach i F) :
    (∀ c, (i.addClause c).1 ≠ none) ∧ i.solve.1 ≠ none ∧ ∀ A, (i.solveAssumps A).1 ≠ none := by
  have hi := h.inv
  have hrestart : ∀ (j : Incremental S), j.clauses = F → ∃ j', j.restart = (some (), j') ∧
      LawfulSolve.holds j'.solver F ∧ j'.clauses = F := by
    intro j hj
    have ht := addCnf_total (S := S) (G := F) (LawfulSolve.init (S := S) j.inits)
    generalize hr : addCnf (S := S) (Solve.init j.inits) F = q at ht
    obtain ⟨q1, q2⟩ := q
    simp only at ht
    subst ht
    refine ⟨{ j with solver := q2, inits := j.inits + 1 }, ?_, addCnf_holds (LawfulSolve.init (S := S) j.inits) hr, hj⟩
    unfold Incremental.restart
    rw [hj, hr]
  have hquery : ∀ (j : Incremental S) (G : ClauseSet) core, LawfulSolve.holds j.solver G → (j.query core).1 ≠ none := by
    intro j G core hj
    unfold Incremental.query
    have ht := TotalSolve.solve hj
    generalize Solve.solve j.solver = q at ht
    obtain ⟨q1, q2⟩ := q
    cases q1 with
    | none => exact absurd rfl ht
    | some r => simp
  have hadd : ∀ (j : Incremental S) (c : Clause), LawfulSolve.holds j.solver F →
      (match Solve.addClause j.solver c with
        | (none, s) => ((none : Option Unit), { j with solver := s })
        | (some (), s) => (some (), { j with solver := s, clauses := j.clauses ++ [c] })).1 ≠ none := by
    intro j c hj
    have ht := TotalSolve.add hj (c := c)
    generalize Solve.addClause j.solver c = q at ht
    obtain ⟨q1, q2⟩ := q
    simp only at ht
    subst ht
    simp
  have hass : ∀ (j : Incremental S) (A : List Lit), LawfulSolve.holds j.solver F →
      (match addCnf j.solver (A.map fun l => [l]) with
        | (none, s) => (none, { j with solver := s })
        | (some (), s) => Incremental.query { j with solver := s } (A.map Lit.neg)).1 ≠ none := by
    intro j A hj
    have ht := addCnf_total (S := S) (G := A.map fun l => [l]) hj
    generalize hr : addCnf j.solver (A.map fun l => [l]) = q at ht
    obtain ⟨q1, q2⟩ := q
    simp only at ht
    subst ht
    exact hquery _ _ _ (addCnf_holds hj hr)
  refine ⟨fun c => ?_, ?_, fun A => ?_⟩
  · unfold Incremental.addClause
    by_cases hs : i.state = .init
    · simp only [if_pos hs]
      exact hadd { i with stats := { i.stats with nClauses := i.stats.nClauses + 1, maxVar := Incremental.updateMaxVar i.stats.maxVar c } } c (hi.init hs)
    · simp only [if_neg hs]
      obtain ⟨j', e, h1, -⟩ := hrestart
        { i with state := .init, stats := { i.stats with nClauses := i.stats.nClauses + 1, maxVar := Incremental.updateMaxVar i.stats.maxVar c } } hi.clauses
      simp only [e]
      exact hadd _ c h1
  · unfold Incremental.solve
    obtain ⟨j', e, h1, -⟩ := hrestart i hi.clauses
    cases hs : i.state with
    | init => exact hquery _ _ _ (hi.init hs)
    | sat => simp
    | unknown => simp only [e]; exact hquery _ _ _ h1
    | unsat core =>
      cases core with
      | nil => simp
      | cons l core => simp only [e]; exact hquery _ _ _ h1
  · unfold Incremental.solveAssumps
    by_cases hs : i.state = .init
    · simp only [if_pos hs]
      exact hass _ A (hi.init hs)
    · simp only [if_neg hs]
      obtain ⟨j', e, h1, -⟩ := hrestart i hi.clauses
      simp only [e]
      exact hass _ A h1

end

theorem Lit.pos_or_negOf (l : Lit) : l = Lit.pos l.var ∨ l = Lit.negOf l.var := by
  have := Lit.eq_or_eq_neg_of_var (a := l) (b := Lit.pos l.var) (by simp)
  simpa using this

/-- A small solver for unit clauses, which answers `Interrupted` if there are others. It can be made to fail: the solver
from the `k`-th initialisation fails in the operation after the first `n` ones if `f k = some n`. -/
structure Toy (f : Nat → Option Nat) where
  cls : ClauseSet
  countdown : Option Nat

namespace Toy
variable {f : Nat → Option Nat}

/-- Counts the operations. -/
def tick (s : Toy f) : Toy f := ⟨s.cls, match s.countdown with | some (n + 1) => some n | _ => none⟩

instance : Solve (Toy f) where
  init k := ⟨[], f k⟩
  addClause s c := if s.countdown = some 0 then (none, s.tick) else (some (), { s.tick with cls := s.cls ++ [c] })
  solve s :=
    if s.countdown = some 0 then (none, s.tick)
    else if s.cls.any (fun c => s.cls.contains (c.map Lit.neg) && c.length == 1) then (some .unsat, s.tick)
    else if s.cls.all (fun c => c.length == 1) then (some .sat, s.tick)
    else (some .interrupted, s.tick)
  litVal s l := if [l] ∈ s.cls then some .true else if [l.neg] ∈ s.cls then some .false else some .dontCare

instance : LawfulSolve (Toy f) where
  holds s F := s.cls = F
  init _ := rfl
  add {s F c s'} h e := by
    simp only [Solve.addClause] at e
    by_cases hc : s.countdown = some 0
    · rw [if_pos hc] at e; cases e
    · rw [if_neg hc] at e
      injection e with _ e
      rw [← e, ← h]
  solveSat {s F s'} h e := by
    simp only [Solve.solve] at e
    by_cases hc : s.countdown = some 0
    · rw [if_pos hc] at e; cases e
    rw [if_neg hc] at e
    by_cases hu : s.cls.any (fun c => s.cls.contains (c.map Lit.neg) && c.length == 1) = true
    · rw [if_pos hu] at e; cases e
    rw [if_neg hu] at e
    by_cases ha : s.cls.all (fun c => c.length == 1) = true
    · rw [if_pos ha] at e
      injection e with _ e
      have hs : s'.cls = F := by rw [← e]; exact h
      have hno : ∀ l, [l] ∈ F → [l.neg] ∉ F := by
        intro l hl hn
        apply hu
        rw [List.any_eq_true]
        exact ⟨[l], h ▸ hl, by simp [h, hn]⟩
      refine ⟨⟨fun v => decide ([Lit.pos v] ∈ F), fun l => ?_⟩, fun b hb c hcF => ?_⟩
      · simp only [Solve.litVal, hs]
        rcases Lit.pos_or_negOf l with h1 | h1
        · rw [h1]
          simp only [Lit.holds_pos, decide_eq_true_eq, decide_eq_false_iff_not]
          by_cases k1 : [Lit.pos l.var] ∈ F
          · simp [k1]
          · by_cases k2 : [Lit.negOf l.var] ∈ F <;> simp [k1, k2]
        · rw [h1]
          have e1 : (Lit.negOf l.var).neg = Lit.pos l.var := by simp
          simp only [Lit.holds_negOf, e1]
          by_cases k1 : [Lit.negOf l.var] ∈ F
          · have := hno _ k1
            rw [e1] at this
            simp [k1, this]
          · by_cases k2 : [Lit.pos l.var] ∈ F
            · simp [k1, k2]
            · simp [k1, k2]
      · have hlen := List.all_eq_true.1 ha c (h ▸ hcF)
        match c, hlen with
        | [l], _ => exact ⟨l, by simp, (hb l).1 (by simp [Solve.litVal, hs, hcF])⟩
    · rw [if_neg ha] at e; cases e
  solveUnsat {s F s'} h e := by
    simp only [Solve.solve] at e
    by_cases hc : s.countdown = some 0
    · rw [if_pos hc] at e; cases e
    rw [if_neg hc] at e
    by_cases hu : s.cls.any (fun c => s.cls.contains (c.map Lit.neg) && c.length == 1) = true
    · rintro ⟨m, hm⟩
      obtain ⟨c, hcF, hx⟩ := List.any_eq_true.1 hu
      simp only [Bool.and_eq_true, List.contains_iff_mem, beq_iff_eq] at hx
      match c, hcF, hx with
      | [l], hcF, hx =>
        have h1 := hm [l] (h ▸ hcF)
        have h2 := hm [l.neg] (h ▸ (by simpa using hx.1))
        simp [Clause.sat] at h1 h2
        rw [h1] at h2
        cases h2
    · rw [if_neg hu] at e
      by_cases ha : s.cls.all (fun c => c.length == 1) = true
      · rw [if_pos ha] at e; cases e
      · rw [if_neg ha] at e; cases e

end Toy

section
variable {S : Type} [Solve S]

/-- The largest variable of some clauses, 0 if there is none. -/
def statVar (F : ClauseSet) : Nat := (F.map fun c => (c.map Lit.var).foldr max 0).foldr max 0

theorem foldl_maxVar (c : Clause) : ∀ m, c.foldl (fun m l => max m l.var) m = max m ((c.map Lit.var).foldr max 0) := by
  induction c with
  | nil => intro m; simp
  | cons l c ih => intro m; rw [List.foldl_cons, ih, List.map_cons, List.foldr_cons]; omega

theorem statVar_append (F : ClauseSet) (c : Clause) : statVar (F ++ [c]) = max (statVar F) ((c.map Lit.var).foldr max 0) := by
  unfold statVar
  induction F with
  | nil => simp
  | cons d F ih => rw [List.cons_append, List.map_cons, List.foldr_cons, ih, List.map_cons, List.foldr_cons]; omega

theorem restart_stats (i : Incremental S) : i.restart.2.stats = i.stats := rfl

theorem record_stats (i : Incremental S) (core : List Lit) (r : SolverResult) :
    (i.record core r).stats.nClauses = i.stats.nClauses ∧ (i.record core r).stats.maxVar = i.stats.maxVar := by
  cases r <;> exact ⟨rfl, rfl⟩

theorem query_stats (i : Incremental S) (core : List Lit) :
    (i.query core).2.stats.nClauses = i.stats.nClauses ∧ (i.query core).2.stats.maxVar = i.stats.maxVar := by
  unfold Incremental.query
  generalize Solve.solve i.solver = r
  obtain ⟨r1, r2⟩ := r
  cases r1 with
  | none => exact ⟨rfl, rfl⟩
  | some r => exact record_stats _ _ r

theorem solve_stats (i : Incremental S) :
    i.solve.2.stats.nClauses = i.stats.nClauses ∧ i.solve.2.stats.maxVar = i.stats.maxVar := by
  have hr : ∀ x : Option Unit × Incremental S, x.2.stats = i.stats →
      (match x with | (none, i) => (none, i) | (some (), i) => i.query [] : Option SolverResult × Incremental S).2.stats.nClauses =
        i.stats.nClauses ∧
      (match x with | (none, i) => (none, i) | (some (), i) => i.query [] : Option SolverResult × Incremental S).2.stats.maxVar =
        i.stats.maxVar := by
    rintro ⟨x1, x2⟩ hx
    cases x1 with
    | none => exact ⟨congrArg _ hx, congrArg _ hx⟩
    | some u =>
      have := query_stats x2 []
      rw [show x2.stats = i.stats from hx] at this
      exact this
  unfold Incremental.solve
  split
  · exact ⟨rfl, rfl⟩
  · exact ⟨rfl, rfl⟩
  · exact query_stats i []
  · exact hr i.restart (restart_stats i)

theorem solveAssumps_stats (i : Incremental S) (A : List Lit) :
    (i.solveAssumps A).2.stats.nClauses = i.stats.nClauses ∧ (i.solveAssumps A).2.stats.maxVar = i.stats.maxVar := by
  have hx : (if i.state = .init then (some (), i) else i.restart : Option Unit × Incremental S).2.stats = i.stats := by
    by_cases h : i.state = .init
    · rw [if_pos h]
    · rw [if_neg h]; exact restart_stats i
  unfold Incremental.solveAssumps
  generalize (if i.state = .init then (some (), i) else i.restart : Option Unit × Incremental S) = x at hx ⊢
  obtain ⟨x1, x2⟩ := x
  have hx' : x2.stats = i.stats := hx
  cases x1 with
  | none => exact ⟨congrArg _ hx', congrArg _ hx'⟩
  | some u =>
    simp only
    generalize addCnf x2.solver (A.map fun l => [l]) = y
    obtain ⟨y1, y2⟩ := y
    cases y1 with
    | none => exact ⟨congrArg _ hx', congrArg _ hx'⟩
    | some u =>
      rw [← hx']
      exact query_stats { x2 with solver := y2 } (A.map Lit.neg)

/-- C56: the statistics of the simulator have the number of clauses and the largest variable, which is 0 if only empty
clauses were added. -/
theorem C56_statistics {i : Incremental S} {F : ClauseSet} (h : SimReach i F) :
    i.stats.nClauses = F.length ∧ i.stats.maxVar = if F = [] then none else some (statVar F) := by
  induction h with
  | new => exact ⟨rfl, rfl⟩
  | @add i F c i' _ he ih =>
    obtain ⟨ih1, ih2⟩ := ih
    have hv : Incremental.updateMaxVar i.stats.maxVar c = some (statVar (F ++ [c])) := by
      unfold Incremental.updateMaxVar
      rw [foldl_maxVar, statVar_append, ih2]
      by_cases hF : F = []
      · rw [if_pos hF, hF]; rfl
      · rw [if_neg hF]; rfl
    unfold Incremental.addClause at he
    simp only at he
    have key : ∀ j : Incremental S, j.stats.nClauses = i.stats.nClauses + 1 → j.stats.maxVar = some (statVar (F ++ [c])) →
        (match Solve.addClause j.solver c with
          | (none, s) => ((none : Option Unit), { j with solver := s })
          | (some (), s) => (some (), { j with solver := s, clauses := j.clauses ++ [c] })) = (some (), i') →
        i'.stats.nClauses = (F ++ [c]).length ∧ i'.stats.maxVar = if F ++ [c] = [] then none else some (statVar (F ++ [c])) := by
      intro j h1 h2 h3
      rw [if_neg (by simp), List.length_append]
      generalize Solve.addClause j.solver c = r at h3
      obtain ⟨r1, r2⟩ := r
      cases r1 with
      | none => simp at h3
      | some u =>
        simp only [Prod.mk.injEq, true_and] at h3
        rw [← h3]
        exact ⟨by rw [← ih1]; exact h1, h2⟩
    by_cases hi : i.state = .init
    · rw [if_pos hi] at he
      exact key _ rfl hv he
    · rw [if_neg hi] at he
      split at he
      · cases he
      · rename_i j hj
        have hj' := congrArg (fun x => x.2.stats) hj
        rw [restart_stats] at hj'
        exact key j (by rw [← hj']) (by rw [← hj']; exact hv) he
  | @solve i F r i' _ he ih =>
    have := solve_stats i
    rw [he] at this
    rw [this.1, this.2]; exact ih
  | @assumps i F A r i' _ he ih =>
    have := solveAssumps_stats i A
    rw [he] at this
    rw [this.1, this.2]; exact ih

end

/-- The hypotheses of the theorems hold for a history with an unsatisfiable query under assumptions, a clause added after
it, and a satisfiable query. -/
example : ∃ i : Incremental (Toy fun _ => none), SimReach i [[Lit.pos 0], [Lit.pos 1]] ∧ i.state = .sat ∧
    i.litVal (Lit.negOf 1) = some .false ∧ i.stats = { nSat := 1, nUnsat := 1, nClauses := 2, maxVar := some 1 } := by
  have h := SimReach.solve (r := .sat) (SimReach.add (c := [Lit.pos 1])
    (SimReach.assumps (A := [Lit.negOf 0]) (r := .unsat) (SimReach.add (c := [Lit.pos 0]) (SimReach.new (S := Toy fun _ => none)) rfl) rfl) rfl) rfl
  exact ⟨_, h, rfl, rfl, rfl⟩

/-- **C56** (violation): the clause `x0` is added, the query with the assumption `¬x0` fails, and the query after it says
`Unsat`. -/
theorem C56_violated_assumptions_remain :
    ∃ (i1 i2 i3 : Incremental (Toy fun k => if k = 0 then some 2 else none)),
      Incremental.default.addClause [Lit.pos 0] = (some (), i1) ∧ i1.solveAssumps [Lit.negOf 0] = (none, i2) ∧
      i2.solve = (some .unsat, i3) ∧ ∃ m, ClauseSet.sat m [[Lit.pos 0]] :=
  ⟨_, _, _, rfl, rfl, rfl, fun _ => true, by simp [ClauseSet.sat, Clause.sat]⟩

/-- **C56** (violation): the clauses `x0` and `¬x0` are added and found to be unsatisfiable. Adding a third clause fails,
and the query after it says `Sat`. -/
theorem C56_violated_clauses_missing :
    ∃ (i1 i2 i3 i4 i5 : Incremental (Toy fun k => if k = 1 then some 1 else none)),
      Incremental.default.addClause [Lit.pos 0] = (some (), i1) ∧ i1.addClause [Lit.negOf 0] = (some (), i2) ∧
      i2.solve = (some .unsat, i3) ∧ i3.addClause [Lit.pos 1] = (none, i4) ∧ i4.solve = (some .sat, i5) ∧
      Unsatisfiable [[Lit.pos 0], [Lit.negOf 0]] := by
  refine ⟨_, _, _, _, _, rfl, rfl, rfl, rfl, rfl, ?_⟩
  rintro ⟨m, hm⟩
  have h1 := hm [Lit.pos 0] (by simp)
  have h2 := hm [Lit.negOf 0] (by simp)
  simp [Clause.sat] at h1 h2
  rw [h1] at h2
  cases h2

/-- **C56** (violation): two queries are counted as one. -/
theorem C56_violated_count : ∃ (i1 i2 : Incremental (Toy fun _ => none)),
    Incremental.default.solve = (some .sat, i1) ∧ i1.solve = (some .sat, i2) ∧ i2.stats.nSat = 1 :=
  ⟨_, _, rfl, rfl, rfl⟩

/-- **C56** (violation): the highest variable of a solver with the empty clause only is said to be 0. -/
theorem C56_violated_max_var : ∃ i1 : Incremental (Toy fun _ => none),
    Incremental.default.addClause [] = (some (), i1) ∧ i1.stats.maxVar = some 0 :=
  ⟨_, rfl, rfl⟩

/-! ### External solvers -/

theorem ExtReach.spec {e : External} {F : ClauseSet} (h : ExtReach e F) :
    ∃ n, e = .pre F n ∧ (∀ c ∈ F, ∀ l ∈ c, l.var < n) ∧ (∀ k, (∀ c ∈ F, ∀ l ∈ c, l.var < k) → n ≤ k) := by
  induction h with
  | new => exact ⟨0, rfl, (fun _ h => by cases h), fun _ _ => Nat.zero_le _⟩
  | @add e F c e' _ hadd ih =>
    obtain ⟨n, rfl, h1, h2⟩ := ih
    injection hadd with _ hadd
    have key : ∀ (c : Clause) (n : Nat), n ≤ c.foldl (fun n l => max (l.var + 1) n) n ∧
        (∀ l ∈ c, l.var < c.foldl (fun n l => max (l.var + 1) n) n) ∧
        ∀ k, n ≤ k → (∀ l ∈ c, l.var < k) → c.foldl (fun n l => max (l.var + 1) n) n ≤ k := by
      intro c
      induction c with
      | nil => intro n; exact ⟨Nat.le_refl _, (fun _ h => by cases h), fun _ h _ => h⟩
      | cons l c ih =>
        intro n
        obtain ⟨g1, g2, g3⟩ := ih (max (l.var + 1) n)
        rw [List.foldl_cons]
        refine ⟨by omega, fun l' hl' => ?_, fun k hk hl => g3 k ?_ fun l' hl' => hl l' (List.mem_cons_of_mem _ hl')⟩
        · rcases List.mem_cons.1 hl' with rfl | hl'
          · omega
          · exact g2 l' hl'
        · have := hl l List.mem_cons_self
          omega
    obtain ⟨g1, g2, g3⟩ := key c n
    refine ⟨_, hadd.symm, fun c' hc' l hl => ?_, fun k hk => g3 k (h2 k fun c' hc' => hk c' (List.mem_append_left _ hc')) (hk c (by simp))⟩
    rcases List.mem_append.1 hc' with hc' | hc'
    · have := h1 c' hc' l hl
      omega
    · rw [List.mem_singleton.1 hc'] at hl
      exact g2 l hl

theorem writeCnf_text (f : ClauseSet) (n : Nat) (hf : ∀ c ∈ f, Writable c) :
    ∃ t, writeCnfAnnotated f n = some t ∧ CnfText t n f.length (f.map .clause) := by
  obtain ⟨ls, h1, h2⟩ := writeAll_ok (R := CnfLineText) (f := writeClause) (g := CnfData.clause) (xs := f) (by
    intro c hc
    obtain ⟨t, h1, h2, h3⟩ := writeClause_ok (hf c hc)
    exact ⟨t, .clause h1, h2, h3⟩)
  refine ⟨_, by rw [writeCnfAnnotated, h1, prefixed], ["c CNF file written by RustSAT".toList],
    'p' :: ([' '] ++ ('c' :: 'n' :: 'f' :: ([' '] ++ (showNat n ++ ([' '] ++ showNat f.length))))), [], [], ls, ?_,
    .mk Sep.single Sep.single Sep.single, (fun c hc => nomatch hc), (fun c hc => nomatch hc), by simp [newline_showNat], h2, ?_⟩
  · intro l hl
    rw [List.mem_singleton] at hl
    subst hl
    exact ignored_of (t := " CNF file written by RustSAT".toList) (by decide)
  · simp [unlines]

theorem exitOk_iff (c : Option Nat) : External.exitOk c = true ↔ c = some 0 ∨ c = some 10 ∨ c = some 20 := by
  cases c with
  | none => simp [External.exitOk]
  | some c => simp [External.exitOk]; omega

/-- **C57.** The text that a program is given is a CNF file of the clauses that were added, and the number of variables
in its header is the smallest one for these clauses. -/
theorem C57_input {e : External} {F : ClauseSet} (h : ExtReach e F) (hF : ∀ c ∈ F, Writable c) :
    ∃ t n, CnfText t n F.length (F.map .clause) ∧ (∀ k, n ≤ k ↔ ∀ c ∈ F, ∀ l ∈ c, l.var < k) ∧
    ∀ run : Program, e.solve run = (match parseSatSolverOutput (run t).2 with
      | .err err => (.err (.output err), .post .unknown)
      | .panic => (.panic, .post .unknown)
      | .ok out =>
        if (run t).1 = some 0 ∨ (run t).1 = some 10 ∨ (run t).1 = some 20 then (.ok out.result, .post out)
        else (.err .process, .post .unknown)) := by
  obtain ⟨n, rfl, h1, h2⟩ := h.spec
  obtain ⟨t, h3, h4⟩ := writeCnf_text F n hF
  refine ⟨t, n, h4, fun k => ⟨fun hk c hc l hl => Nat.lt_of_lt_of_le (h1 c hc l hl) hk, h2 k⟩, fun run => ?_⟩
  unfold External.solve External.callExternal
  simp only [h3]
  cases parseSatSolverOutput (run t).2 with
  | err _ => rfl
  | panic => rfl
  | ok out =>
    simp only [exitOk_iff]
    by_cases hx : (run t).1 = some 0 ∨ (run t).1 = some 10 ∨ (run t).1 = some 20
    · rw [if_pos hx, if_pos hx]
    · rw [if_neg hx, if_neg hx]

theorem collects_none {ls : List Text} (h : ∀ l ∈ ls, ¬ StatusLine l ∧ ¬ ValueLine l) : Quiet ls := by
  refine ⟨fun l hl hd => (h l hl).1 hd.1, Assignment.empty, ?_⟩
  induction ls with
  | nil => exact .nil
  | cons l ls ih => exact .other (h l (by simp)).2 (ih fun l' hl' => h l' (by simp [hl']))

/-- **C57.** With a correct program, `solve` succeeds after any clauses were added. It says `Sat` only if the clauses are
satisfiable, and then `lit_val` returns the values of a model; it says `Unsat` only if they are unsatisfiable. -/
theorem C57_solve {run : Program} (hrun : CorrectProgram run) {e : External} {F : ClauseSet} (h : ExtReach e F)
    (hF : ∀ c ∈ F, Writable c) (hlen : F.length ≤ usizeMax) :
    ∃ r e', e.solve run = (.ok r, e') ∧ (r = .sat → GivesModel (fun l => (e'.litVal l).toOption) F) ∧
      (r = .unsat → Unsatisfiable F) := by
  obtain ⟨t, n, h1, h2, h3⟩ := C57_input h hF
  have hn : n ≤ u32Max := (h2 _).2 fun c hc l hl => by
    have h1 := hF c hc l hl
    have e2 : u32Max = 4294967295 := by decide
    omega
  obtain ⟨hex, hans⟩ := hrun t n F hn hlen h1 ((h2 n).1 (Nat.le_refl _))
  rw [h3]
  rcases hans with ⟨k1, k2, k3, k4, k5⟩ | ⟨k1, k2, k3, k4⟩ | ⟨k1, k2, k3⟩
  · rename_i lits
    have hp := C46_values_partial k1 k2 k3 k4
    obtain ⟨m1, m2⟩ := C46_values_meaning k2
    rw [hp]
    simp only [if_pos hex]
    refine ⟨_, _, rfl, fun _ => ?_, (fun h => by cases h)⟩
    have hval : ∀ l, ((External.post (.sat (Assignment.ofLits lits))).litVal l).toOption = some ((Assignment.ofLits lits).litValue l) :=
      fun _ => rfl
    simp only [GivesModel, AgreesWith, hval, Option.some.injEq]
    refine ⟨⟨fun v => (Assignment.ofLits lits).varValue v == .true, fun l => ?_⟩, fun b hb => k5 b fun l hl => (hb l).1 (m1 l hl)⟩
    rcases Lit.pos_or_negOf l with h1 | h1
    · rw [h1]
      simp only [Lit.holds_pos]
      cases hv : (Assignment.ofLits lits).varValue l.var <;> simp [Assignment.litValue, hv]
    · rw [h1]
      simp only [Lit.holds_negOf]
      cases hv : (Assignment.ofLits lits).varValue l.var <;> simp [Assignment.litValue, hv]
  · rw [(C46_unsat _).2 ⟨_, _, _, k1, collects_none k2, k3⟩]
    simp only [if_pos hex]
    exact ⟨_, _, rfl, (fun h => by cases h), fun _ => k4⟩
  · rw [(C46_unknown _).2 ⟨_, _, _, k1, collects_none k2, k3⟩]
    simp only [if_pos hex]
    exact ⟨_, _, rfl, (fun h => by cases h), (fun h => by cases h)⟩

/-- A program that knows the answers for two files, and says `UNKNOWN` otherwise. -/
def demoProgram : Program := fun t =>
  match readCnf t with
  | some (_, _, [.clause [l]]) => (some 10, if l = Lit.pos 0 then "s SATISFIABLE\nv 1 0\n".toList else "s UNKNOWN\n".toList)
  | some (_, _, [.clause [l], .clause [l']]) => (some 20, if l' = l.neg then "c hi\ns UNSATISFIABLE\n".toList else "s UNKNOWN\n".toList)
  | _ => (some 0, "s UNKNOWN\n".toList)

theorem demoProgram_correct : CorrectProgram demoProgram := by
  have hunk : ∀ F, ProperAnswer F "s UNKNOWN\n".toList := fun F =>
    .unknown (pre := []) (l := "s UNKNOWN".toList) (post := []) rfl (fun _ h => by cases h)
      (.inl ⟨[], [], (fun _ h => by cases h), rfl⟩)
  intro t nv F hnv hF ⟨pre, h, w, w', ls, h1, h2, h3, h4, h5, h6, h7⟩ hv
  have hread := C41_layout h1 h2 h3 h4 h5 hnv hF h6
  rw [← h7] at hread
  simp only [demoProgram, hread]
  match F, hv with
  | [], _ => exact ⟨.inl rfl, hunk _⟩
  | [[]], _ => exact ⟨.inl rfl, hunk _⟩
  | [[l]], _ =>
    refine ⟨.inr (.inl rfl), ?_⟩
    simp only [List.map_cons, List.map_nil]
    by_cases hl : l = Lit.pos 0
    · rw [if_pos hl, hl]
      have e : Text.lines "s SATISFIABLE\nv 1 0\n".toList = ["s SATISFIABLE".toList, "v 1 0".toList] := by decide
      refine .sat (lits := [Lit.pos 0]) (e ▸ .status ⟨[], [], (fun _ h => by cases h), rfl⟩ (.value (lits := [Lit.pos 0]) (lits' := []) ?_ (by decide) .nil)) ?_ ?_ ?_ ?_
      · show ListsLits [Lit.pos 0] "v 1 0".toList
        exact .satComp (zs := [1, 0]) (.cons (w := []) (x := "1".toList) (b := ' ') (by decide) (by decide) (by decide) (by decide)
          (.last (w := []) (x := "0".toList) (by decide) (by decide) (by decide))) (by decide) (by decide) (by decide)
      · simp
      · exact ⟨"s SATISFIABLE".toList, by decide, ⟨[], [], (fun _ h => by cases h), rfl⟩⟩
      · exact ⟨"v 1 0".toList, by decide, ⟨_, rfl⟩⟩
      · intro b hb
        simpa [ClauseSet.sat, Clause.sat] using hb
    · rw [if_neg hl]; exact hunk _
  | [_ :: _ :: _], _ => exact ⟨.inl rfl, hunk _⟩
  | [[], _], _ => exact ⟨.inl rfl, hunk _⟩
  | [[l], []], _ => exact ⟨.inl rfl, hunk _⟩
  | [[l], [l']], _ =>
    refine ⟨.inr (.inr rfl), ?_⟩
    simp only [List.map_cons, List.map_nil]
    by_cases hl : l' = l.neg
    · rw [if_pos hl, hl]
      refine .unsat (pre := ["c hi".toList]) (l := "s UNSATISFIABLE".toList) (post := []) rfl ?_
        ⟨[], [], (fun _ h => by cases h), rfl⟩ ?_
      · intro l hl
        rw [List.mem_singleton.1 hl]
        exact ⟨(fun ⟨_, h⟩ => by cases h), (fun ⟨_, h⟩ => by cases h)⟩
      · rintro ⟨m, hm⟩
        have h1 := hm [l] (by simp)
        have h2 := hm [l.neg] (by simp)
        simp [Clause.sat] at h1 h2
        rw [h1] at h2
        cases h2
    · rw [if_neg hl]; exact hunk _
  | [[l], _ :: _ :: _], _ => exact ⟨.inl rfl, hunk _⟩
  | [_ :: _ :: _, _], _ => exact ⟨.inl rfl, hunk _⟩
  | c :: c' :: c'' :: F, _ =>
    simp only [List.map_cons]
    exact ⟨.inl trivial, hunk _⟩

set_option maxRecDepth 4000 in
/-- Non-vacuity: a session with a correct program. -/
example : ∃ e, ExtReach e [[Lit.pos 0]] ∧ e.solve demoProgram = (.ok .sat, .post (.sat ⟨[.true]⟩)) := by
  refine ⟨.pre [[Lit.pos 0]] 1, .add .new rfl, ?_⟩
  have h1 : writeCnfAnnotated [[Lit.pos 0]] 1 = some "c CNF file written by RustSAT\np cnf 1 1\n1 0\n".toList := by decide
  have h2 : readCnf "c CNF file written by RustSAT\np cnf 1 1\n1 0\n".toList = some (1, 1, [.clause [Lit.pos 0]]) := by decide
  have h3 : parseSatSolverOutput "s SATISFIABLE\nv 1 0\n".toList = .ok (.sat ⟨[.true]⟩) := by decide
  simp only [External.solve, External.callExternal, h1, demoProgram, h2, if_true, h3]
  rfl

/-- **C57.** A program is called at most once: after `solve`, with whatever result, clauses cannot be added and `solve`
fails, with nothing changed. -/
theorem C57_once (run : Program) (e : External) {r e'} (h : e.solve run = (r, e')) :
    (∀ run', ∃ st, st ≠ .input ∧ e'.solve run' = (.err (.state .input st), e')) ∧
    (∀ c, ∃ st, st ≠ .input ∧ e'.addClause c = (.err (.state .input st), e')) ∧
    ((∃ sol, e' = .post (.sat sol)) ∨ ∀ l, ∃ st, st ≠ .sat ∧ e'.litVal l = .error (.state .sat st)) := by
  have hpost : ∃ out, e' = .post out := by
    unfold External.solve at h
    cases e with
    | post out => injection h with _ h; exact ⟨out, h.symm⟩
    | pre cnf n =>
      simp only at h
      cases hc : External.callExternal run cnf n with
      | ok out => rw [hc] at h; injection h with _ h; exact ⟨_, h.symm⟩
      | err err => rw [hc] at h; injection h with _ h; exact ⟨_, h.symm⟩
      | panic => rw [hc] at h; injection h with _ h; exact ⟨_, h.symm⟩
  obtain ⟨out, rfl⟩ := hpost
  refine ⟨fun run' => ⟨out.state, ?_, rfl⟩, fun c => ⟨out.state, ?_, rfl⟩, ?_⟩
  · cases out <;> exact fun h => by cases h
  · cases out <;> exact fun h => by cases h
  · cases out with
    | sat sol => exact .inl ⟨sol, rfl⟩
    | unsat => exact .inr fun l => ⟨.unsat, (fun h => by cases h), rfl⟩
    | unknown => exact .inr fun l => ⟨.unknown, (fun h => by cases h), rfl⟩

/-- **C57.** Values of literals are errors before `solve`, and `solution` returns the values of the variables up to the
given one, as `lit_val` does. -/
theorem C57_solution (e : External) (v : Nat) :
    (∀ F n, e = .pre F n → (∀ l, e.litVal l = .error (.state .sat .input)) ∧ e.solution v = .error (.state .sat .input)) ∧
    ∀ a, e.solution v = .ok a → ∀ w, (w ≤ v → e.litVal (Lit.pos w) = .ok (a.varValue w)) ∧ (v < w → a.varValue w = .dontCare) := by
  refine ⟨fun F n h => by subst h; exact ⟨fun _ => rfl, rfl⟩, fun a h w => ?_⟩
  cases e with
  | pre F n => cases h
  | post out =>
    cases out with
    | unsat => cases h
    | unknown => cases h
    | sat sol =>
      injection h with h
      subst h
      refine ⟨fun hw => ?_, fun hw => ?_⟩
      · show Except.ok (sol.litValue (Lit.pos w)) = _
        rw [Assignment.varValue_truncate, if_pos hw]
        simp [Assignment.litValue]
      · rw [Assignment.varValue_truncate, if_neg (by omega)]

end RustSat
