import Verif.Props.BindingsMini
import Verif.Lemmas.Propagate
/-
C88: propagation of assumptions.

Partial: MiniSat and Glucose read out of bounds if an assumption has a variable the solver does not know, versions of CaDiCaL
before 2.1 report a conflict if there are no variables, and CaDiCaL reports literals that do not follow if there is a temporary
clause (`C88_violated_*`).
-/
namespace RustSat

/-! ### `propCheck` -/

/-- C88: without a conflict, exactly the literals that unit propagation derives are reported, except those known without
assumptions; a conflict is reported if and only if unit propagation runs into a contradiction; literals that are reported
together with a conflict follow as well; and the trail is restored. -/
theorem C88_propcheck {s : PropCheck.Core} {D : ClauseSet} {up : List Lit → List Lit × Option Lit} {A : List Lit}
    {r : Bool} {ls T : List Lit} (hs : s.Ready D) (hok : s.ok = true) (hup : Propagates D up)
    (h : PropCheck.propCheck s up A = some (r, ls, T)) :
    T = s.trail ∧ (r = false ↔ UnitConflict D A) ∧
    (r = true → ∀ l, UnitDerives D A l ↔ l ∈ s.trail ∨ l ∈ ls) ∧
    (∀ l ∈ ls, Implies (D ++ units A) l) ∧ (r = false → Unsatisfiable (D ++ units A)) := by
  unfold PropCheck.propCheck at h
  rw [if_pos hok] at h
  cases hl : PropCheck.loop s.nVars up A ⟨s.trail, none, false, none⟩ with
  | none => rw [hl] at h; cases h
  | some t =>
    rw [hl] at h
    injection h with h
    injection h with h1 h2
    injection h2 with h2 h3
    have hi : PropCheck.Inv D s.trail ([] ++ A) t := PropCheck.loop_inv hup A [] ⟨s.trail, none, false, none⟩ t
      ⟨⟨[], by simp⟩, .inl ⟨rfl, rfl, rfl⟩, hs.consistent, hs.derives, nofun, nofun, fun _ _ => ⟨hs.propagated, nofun⟩⟩ hl
    rw [List.nil_append] at hi
    obtain ⟨R, hR⟩ := hi.pre
    have hrep : ls = R ++ t.confl.toList ∧ T = s.trail := by
      rw [← h2, ← h3]
      unfold PropCheck.report PropCheck.backtrack
      rcases hi.lim with ⟨a, b, c⟩ | a
      · rw [a, c]
        rw [b] at hR
        have : R = [] := by simpa using hR
        simp [this, b]
      · rw [a, hR]
        simp
    have hconf : r = false → UnitConflict D A := by
      intro hr
      rw [hr] at h1
      cases hu : t.unsat with
      | true => exact hi.unsat hu
      | false =>
        cases hc : t.confl with
        | none => simp [hu, hc] at h1
        | some l => exact hi.confl l hc
    have hno : r = true → t.confl = none ∧ Propagated D t.trail ∧ ∀ a ∈ A, a ∈ t.trail := by
      intro hr
      rw [hr] at h1
      simp only [Bool.and_eq_true, Bool.not_eq_true', Option.isNone_iff_eq_none] at h1
      exact ⟨h1.2, hi.run h1.1 h1.2⟩
    refine ⟨hrep.2, ⟨hconf, fun hc => ?_⟩, fun hr l => ?_, fun l hlm => ?_, fun hr => (hconf hr).unsatisfiable⟩
    · cases hr : r with
      | false => rfl
      | true =>
        obtain ⟨_, h5, h6⟩ := hno hr
        exact absurd hc (h5.noConflict hi.consistent h6)
    · obtain ⟨h4, h5, h6⟩ := hno hr
      rw [hrep.1, h4, Option.toList_none, List.append_nil, ← List.mem_append, ← hR]
      exact ⟨fun hd => h5.derives h6 hd, hi.derives l⟩
    · rw [hrep.1] at hlm
      rcases List.mem_append.1 hlm with hlm | hlm
      · exact (hi.derives l (by rw [hR]; exact List.mem_append_right _ hlm)).implies
      · have hc := hi.confl l (by simpa using hlm)
        exact fun m hm => absurd ⟨m, hm⟩ hc.unsatisfiable

/-- C88: the call returns if the solver knows the variables of the assumptions. -/
theorem C88_propcheck_total {s : PropCheck.Core} {up : List Lit → List Lit × Option Lit} {A : List Lit}
    (hA : ∀ l ∈ A, l.var < s.nVars) : ∃ r, PropCheck.propCheck s up A = some r := by
  unfold PropCheck.propCheck
  by_cases h : s.ok = true
  · rw [if_pos h]
    obtain ⟨t, ht⟩ := PropCheck.loop_total up A ⟨s.trail, none, false, none⟩ hA
    rw [ht]
    exact ⟨_, rfl⟩
  · rw [if_neg h]
    exact ⟨_, rfl⟩

/-- C88: a version of CaDiCaL before 2.1 that has variables returns the same. (`_partial`: not without variables, see
`C88_violated_empty`.) -/
theorem C88_prop_check_partial {s : PropCheck.Core} {up : List Lit → List Lit × Option Lit} {A : List Lit}
    (hn : 0 < s.nVars) : PropCheck.cadicalPropCheck s up A = PropCheck.propCheck s up A := by
  unfold PropCheck.cadicalPropCheck PropCheck.alreadySolved
  by_cases h : s.ok = true
  · rw [if_pos h, if_neg (show ¬ s.nVars = 0 by omega), if_pos rfl]
  · rw [if_neg h, if_neg (by decide)]
    unfold PropCheck.propCheck
    rw [if_neg h]

/-- The clauses `x0`, `¬x0 ∨ ¬x1 ∨ x2`, `¬x2 ∨ x3`, `¬x3 ∨ ¬x4`, `¬x5 ∨ x6`, `¬x6 ∨ ¬x5`. -/
def propDemo : ClauseSet :=
  [[Lit.pos 0], [Lit.negOf 0, Lit.negOf 1, Lit.pos 2], [Lit.negOf 2, Lit.pos 3], [Lit.negOf 3, Lit.negOf 4],
    [Lit.negOf 5, Lit.pos 6], [Lit.negOf 6, Lit.negOf 5]]

/-- The hypotheses hold for a solver with the unit clause on level 0; assumptions propagate, are contradictory, or hold
already. -/
example : Propagates propDemo (PropCheck.simpleUp propDemo) ∧ PropCheck.Core.Ready ⟨true, 7, [Lit.pos 0]⟩ propDemo ∧
    PropCheck.propCheck ⟨true, 7, [Lit.pos 0]⟩ (PropCheck.simpleUp propDemo) [Lit.pos 0, Lit.pos 1] =
      some (true, [Lit.pos 1, Lit.pos 2, Lit.pos 3, Lit.negOf 4], [Lit.pos 0]) ∧
    PropCheck.propCheck ⟨true, 7, [Lit.pos 0]⟩ (PropCheck.simpleUp propDemo) [Lit.pos 1, Lit.pos 4] =
      some (false, [Lit.pos 1, Lit.pos 2, Lit.pos 3, Lit.negOf 4], [Lit.pos 0]) ∧
    PropCheck.propCheck ⟨true, 7, [Lit.pos 0]⟩ (PropCheck.simpleUp propDemo) [Lit.pos 4, Lit.pos 5, Lit.pos 1] =
      some (false, [Lit.pos 4, Lit.negOf 3, Lit.negOf 2, Lit.negOf 1, Lit.pos 5, Lit.pos 6, Lit.negOf 6], [Lit.pos 0]) := by
  refine ⟨PropCheck.simpleUp_propagates (by decide), ⟨by unfold Consistent; decide, by unfold Propagated; decide, fun l hl => ?_⟩, by decide, by decide, by decide⟩
  rw [List.mem_singleton.1 hl]
  exact .unit (c := [Lit.pos 0]) (by decide) (by decide) fun k hk hne => absurd (List.mem_singleton.1 hk) hne

/-- C88 is violated: `propagate` of a version of CaDiCaL before 2.1 reports a conflict if no variable has been used yet,
although there are no clauses and no assumptions. -/
theorem C88_violated_empty : PropCheck.Core.Ready ⟨true, 0, []⟩ [] ∧ ¬ UnitConflict [] [] ∧
    ¬ Unsatisfiable ([] ++ units []) ∧ PropCheck.cadicalPropCheck ⟨true, 0, []⟩ (PropCheck.simpleUp []) [] = some (false, [], []) := by
  have hr : PropCheck.Core.Ready ⟨true, 0, []⟩ [] := ⟨nofun, ⟨nofun, nofun⟩, nofun⟩
  exact ⟨hr, hr.propagated.noConflict hr.consistent nofun, fun h => h ⟨fun _ => true, nofun⟩, rfl⟩

/-! ### The wrappers of MiniSat and Glucose -/

section
variable {H : Type} [MiniLib H] [LawfulMini H]

/-- C88: literals that `propagate` returns follow from the clauses added so far and the assumptions, and a conflict means that
these are contradictory. Afterwards neither values nor a core can be read; and as the history may be continued, all later
queries are answered for the same clauses (C71). -/
theorem C88_mini {n n' : Mini H} {F : ClauseSet} {A : List Lit} {s : Bool} {r : PropagateResult} (h : MiniReach n F)
    (e : n.propagate A s = (.ok r, n')) :
    (∀ l ∈ r.propagated, Implies (F ++ units A) l) ∧ (r.conflict = true → Unsatisfiable (F ++ units A)) ∧
    MiniReach n' F ∧ n'.state = .input ∧ n'.stats = n.stats := by
  have q := h.inv.propagate_ok e
  exact ⟨q.implied, q.conflict, h.propagate e, q.state, q.stats⟩

omit [MiniLib H] [LawfulMini H] in
theorem Mini.record_handle {n n' : Mini H} {b : Bool} {p : Int × H} {r : SolverResult} (e : n.record b p = (.ok r, n')) :
    n'.handle = p.2 := by
  unfold Mini.record at e
  by_cases h0 : p.1 = 0
  · rw [if_pos h0] at e; injection e with _ e; subst e; rfl
  rw [if_neg h0] at e
  by_cases h1 : p.1 = 10
  · rw [if_pos h1] at e; injection e with _ e; subst e; rfl
  rw [if_neg h1] at e
  by_cases h2 : p.1 = 20
  · rw [if_pos h2] at e; injection e with _ e; subst e; rfl
  rw [if_neg h2] at e
  injection e with e _
  cases e

theorem MiniReach.known {n : Mini H} {F : ClauseSet} (h : MiniReach n F) :
    ∀ c ∈ F, ∀ l ∈ c, l.var < LawfulMini.known n.handle := by
  induction h with
  | new => exact nofun
  | @add n F c _ ih =>
    intro d hd l hl
    have hk := LawfulMini.knownAdd n.handle c
    rcases List.mem_append.1 hd with hd | hd
    · exact Nat.lt_of_lt_of_le (ih d hd l hl) hk.1
    · rw [List.mem_singleton.1 hd] at hl
      exact hk.2 l hl
  | @reserve n F v _ ih =>
    exact fun d hd l hl => Nat.lt_of_lt_of_le (ih d hd l hl) (LawfulMini.knownReserve n.handle v).1
  | @solve n F r n' _ e ih =>
    rcases n.solve_cases with ⟨_, he⟩ | ⟨_, he⟩ | he
    · rw [he] at e; injection e with _ e; exact e ▸ ih
    · rw [he] at e; injection e with _ e; exact e ▸ ih
    · rw [he] at e
      intro d hd l hl
      rw [Mini.record_handle e]
      exact Nat.lt_of_lt_of_le (ih d hd l hl) (LawfulMini.knownSolve n.handle []).1
  | @assumps n F A r n' _ e ih =>
    intro d hd l hl
    rw [Mini.record_handle e]
    exact Nat.lt_of_lt_of_le (ih d hd l hl) (LawfulMini.knownSolve n.handle A).1
  | propagate h e ih =>
    rw [(h.inv.propagate_ok e).known]
    exact ih

/-- C88: `propagate` succeeds if the variables of the assumptions occur in clauses, or are at most a variable for which
memory was just reserved. (`_partial`: not for other variables, see `C88_violated_unknown_variable`.) -/
theorem C88_mini_total_partial {n : Mini H} {F : ClauseSet} (h : MiniReach n F) (A : List Lit) (s : Bool) :
    ((∀ a ∈ A, ∃ c ∈ F, ∃ l ∈ c, l.var = a.var) → ∃ r n', n.propagate A s = (.ok r, n')) ∧
    ∀ v, (∀ a ∈ A, a.var ≤ v ∨ ∃ c ∈ F, ∃ l ∈ c, l.var = a.var) → ∃ r n', (n.reserve v).propagate A s = (.ok r, n') := by
  have key : ∀ (n : Mini H), (∀ a ∈ A, a.var < LawfulMini.known n.handle) → ∃ r n', n.propagate A s = (.ok r, n') := by
    intro n hk
    obtain ⟨⟨res, ls, h'⟩, hp⟩ := LawfulMini.propTotal n.handle A s hk
    unfold Mini.propagate
    rw [hp]
    dsimp only
    rcases (LawfulMini.propResult n.handle A s res ls h' hp).2.2.1 with hr | hr
    · rw [if_pos hr]; exact ⟨_, _, rfl⟩
    · rw [if_neg (by omega), if_pos hr]; exact ⟨_, _, rfl⟩
  refine ⟨fun hA => key n fun a ha => ?_, fun v hA => key (n.reserve v) fun a ha => ?_⟩
  · obtain ⟨c, hc, l, hl, e⟩ := hA a ha
    rw [← e]
    exact h.known c hc l hl
  · have hk := LawfulMini.knownReserve n.handle v
    show a.var < LawfulMini.known (MiniLib.reserve n.handle v)
    rcases hA a ha with hv | ⟨c, hc, l, hl, e⟩
    · omega
    · have := h.known c hc l hl
      omega

end

/-- The hypotheses hold for a history with a query, a propagation and a propagation with a conflict; after it a query is
answered. -/
example : ∃ n1 n2 n3 n4 : Mini ToyMini, MiniReach n4 [[Lit.pos 0], [Lit.pos 1, Lit.pos 2]] ∧
    ((Mini.new.addClause [Lit.pos 0]).addClause [Lit.pos 1, Lit.pos 2]).solveAssumps [Lit.pos 1] = (.ok .sat, n1) ∧
    n1.propagate [Lit.negOf 2] true = (.ok ⟨[Lit.pos 0, Lit.negOf 2], false⟩, n2) ∧ n2.litVal (Lit.pos 0) = .err (.state .sat .input) ∧
    n2.propagate [Lit.negOf 0] false = (.ok ⟨[Lit.pos 0, Lit.negOf 0], true⟩, n3) ∧
    n3.solveAssumps [Lit.negOf 0] = (.ok .unsat, n4) ∧ n4.core = .ok [Lit.pos 0] := by
  refine ⟨_, _, _, _, ?_, (eq_pair_of_fst (by decide)), (eq_pair_of_fst (by decide)), (by decide),
    (eq_pair_of_fst (by decide)), (eq_pair_of_fst (by decide)), (by decide)⟩
  have h1 := ((MiniReach.new (H := ToyMini)).add [Lit.pos 0]).add [Lit.pos 1, Lit.pos 2]
  have h2 := h1.assumps (A := [Lit.pos 1]) (r := .sat) (eq_pair_of_fst (by decide))
  have h3 := h2.propagate (A := [Lit.negOf 2]) (s := true) (r := ⟨[Lit.pos 0, Lit.negOf 2], false⟩) (eq_pair_of_fst (by decide))
  have h4 := h3.propagate (A := [Lit.negOf 0]) (s := false) (r := ⟨[Lit.pos 0, Lit.negOf 0], true⟩) (eq_pair_of_fst (by decide))
  exact h4.assumps (A := [Lit.negOf 0]) (r := .unsat) (eq_pair_of_fst (by decide))

/-- C88 is violated: `propagate` of MiniSat and Glucose does not create the variables of the assumptions, unlike
`solve_assumps`, and reads out of bounds. -/
theorem C88_violated_unknown_variable :
    PropCheck.propCheck ⟨true, 1, []⟩ (PropCheck.simpleUp []) [Lit.pos 1] = none ∧
    (∃ n, ((Mini.new : Mini ToyMini).addClause [Lit.pos 0]).propagate [Lit.pos 1] false = (.panic, n)) ∧
    ∃ n, ((Mini.new : Mini ToyMini).addClause [Lit.pos 0]).solveAssumps [Lit.pos 1] = (.ok .sat, n) :=
  ⟨by decide, ⟨_, eq_pair_of_fst (by decide)⟩, ⟨_, eq_pair_of_fst (by decide)⟩⟩

/-! ### The wrapper of CaDiCaL -/

section
variable {H : Type} [Cadical H] [LawfulCadical H]

/-- C88: with CaDiCaL 2.1 or later, literals that `propagate` returns follow from the clauses added so far and the
assumptions, and a conflict means that these are contradictory. If values can be read afterwards then they are those of a
model of clauses and assumptions. The call succeeds if the literals fit a `c_int`, and all later queries are answered for the
same clauses (C70). (`_partial`: with a temporary clause, literals need not follow, see `C88_violated_tmp_clause`.) -/
theorem C88_cadical_partial {n : Native H} {F : ClauseSet} {t u : Option Clause} (h : CadicalReach n F t u) (A : List Lit)
    (hA : ∀ l ∈ A, l.InRange) :
    ∃ r n', n.propagate A = (.ok r, n') ∧ CadicalReach n' F none t ∧
      (t = none → ∀ l ∈ r.propagated, Implies (F ++ units A) l) ∧
      (r.conflict = true → Unsatisfiable (F ++ t.toList ++ units A) ∧ r.propagated = []) ∧
      (∀ core, n'.state ≠ .unsat core) ∧
      (n'.state = .sat → r.conflict = false ∧
        GivesModel (fun l => (n'.cadicalVal l).toOption) (F ++ t.toList ++ units A)) := by
  obtain ⟨r, n', e, q⟩ := h.inv.propagate hA
  refine ⟨r, n', e, h.propagate e, q.implied, fun hc => ⟨(q.conflict hc).2.2, (q.conflict hc).2.1⟩, fun core hs => ?_,
    fun hs => ⟨(q.sat hs).1, Native.cadicalVal_gives hs (q.sat hs).2⟩⟩
  rcases q.state with h1 | h1 <;> rw [hs] at h1 <;> cases h1

omit [LawfulCadical H] in
/-- C88: `propagate` panics if a literal does not fit a `c_int`. -/
theorem C88_cadical_range {n : Native H} {A : List Lit} (h : ∃ l ∈ A, ¬ l.InRange) : (n.propagate A).1 = .panic := by
  obtain ⟨l, hl, hr⟩ := h
  unfold Native.propagate
  cases hp : passLits Ipasir.assume n.handle A with
  | none => rfl
  | some h' => exact absurd (passLits_inRange _ _ _ _ hp l hl) hr

end

/-- The hypotheses hold for a history with propagations with and without conflict, one that finds a model, and one with a
temporary clause. -/
example : ∃ n1 n2 n3 n4 n5 n6 : Native ToyLib, CadicalReach n6 [[Lit.pos 0], [Lit.pos 1, Lit.pos 2]] none (some [Lit.pos 3]) ∧
    Native.new.addClause [Lit.pos 0] = some n1 ∧ n1.addClause [Lit.pos 1, Lit.pos 2] = some n2 ∧
    n2.propagate [Lit.pos 1] = (.ok ⟨[Lit.pos 0, Lit.pos 1], false⟩, n3) ∧ n3.cadicalVal (Lit.pos 1) = .ok .true ∧
    n3.propagate [Lit.negOf 0] = (.ok ⟨[], true⟩, n4) ∧ n4.addTmp [Lit.pos 3] = some n5 ∧
    n5.propagate [] = (.ok ⟨[Lit.pos 0, Lit.pos 3], false⟩, n6) := by
  refine ⟨_, _, _, _, _, _, ((((((CadicalReach.new (H := ToyLib)).add (c := [Lit.pos 0])
    (eq_some_getD (d := Native.new) (by decide))).add (c := [Lit.pos 1, Lit.pos 2])
    (eq_some_getD (d := Native.new) (by decide))).propagate (A := [Lit.pos 1]) (r := ⟨[Lit.pos 0, Lit.pos 1], false⟩)
    (eq_pair_of_fst (by decide))).propagate (A := [Lit.negOf 0]) (r := ⟨[], true⟩) (eq_pair_of_fst (by decide))).addTmp
    (c := [Lit.pos 3]) (eq_some_getD (d := Native.new) (by decide))).propagate (A := []) (r := ⟨[Lit.pos 0, Lit.pos 3], false⟩)
    (eq_pair_of_fst (by decide)), (eq_some_getD (d := Native.new) (by decide)), (eq_some_getD (d := Native.new) (by decide)),
    (eq_pair_of_fst (by decide)), (by decide), (eq_pair_of_fst (by decide)), (eq_some_getD (d := Native.new) (by decide)),
    (eq_pair_of_fst (by decide))⟩

/-- C88 is violated: with a temporary clause, CaDiCaL decides on a literal of it, and `propagate` returns this literal
although it does not follow. -/
theorem C88_violated_tmp_clause : ∃ n1 n2 : Native ToyLib, (Native.new : Native ToyLib).addTmp [Lit.pos 0, Lit.pos 1] = some n1 ∧
    n1.propagate [] = (.ok ⟨[Lit.pos 0], false⟩, n2) ∧
    ¬ Implies ([] ++ (some [Lit.pos 0, Lit.pos 1]).toList ++ units []) (Lit.pos 0) := by
  refine ⟨_, _, (eq_some_getD (d := Native.new) (by decide)), (eq_pair_of_fst (by decide)), fun h => ?_⟩
  have := h (fun v => v == 1) (by unfold ClauseSet.sat Clause.sat; decide)
  exact absurd this (by decide)

end RustSat
