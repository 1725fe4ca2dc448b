import Verif.Props.BindingsCadical
/-
C71: the wrappers of MiniSat and Glucose, over all histories.
C72: the wrapper of Kissat.
C73: callbacks in the wrappers of IPASIR libraries and CaDiCaL.

All three are partial: the values of negative literals are wrong in C71 (`C71_violated_*`), Kissat aborts the process in some
histories (`C72_violated_*`), and the library may be left with a pointer to a callback that is gone (`C73_violated_*`).
-/
namespace RustSat

/-! ### C71 -/

section
variable {H : Type} [MiniLib H] [LawfulMini H]

/-- The values of variables are those of a partial assignment all completions of which are models. -/
def MiniModel (h : H) (F : ClauseSet) : Prop := ∃ p : Nat → Option Bool, ∃ k : Nat,
  (∀ v, MiniLib.value h v = if v < k then some (ternary (p v)) else none) ∧
  (∀ c ∈ F, ∀ l ∈ c, l.var < k) ∧ ∀ m, Extends p m → ClauseSet.sat m F

/-- What holds for the wrapper after a query. -/
structure MiniOk (F : ClauseSet) (A : List Lit) (b : Bool) (r : SolverResult) (n' : Mini H) : Prop where
  clauses : LawfulMini.clauses n'.handle = F
  sat : r = .sat → n'.state = .sat ∧ MiniModel n'.handle (F ++ units A)
  unsat : r = .unsat → n'.state = .unsat b ∧ Unsatisfiable (F ++ units A) ∧
    (∀ l ∈ MiniLib.conflict n'.handle, l.neg ∈ A) ∧ ∀ m, ClauseSet.sat m F → Clause.sat m (MiniLib.conflict n'.handle)
  interrupted : r = .interrupted → n'.state = .input

/-- The invariant of the wrapper. -/
structure MInv (n : Mini H) (F : ClauseSet) : Prop where
  clauses : LawfulMini.clauses n.handle = F
  sat : n.state = .sat → MiniModel n.handle F
  unsat : n.state = .unsat false → Unsatisfiable F
  core : n.state = .unsat true → ∀ m, ClauseSet.sat m F → Clause.sat m (MiniLib.conflict n.handle)

theorem mini_ok {n n' : Mini H} {F : ClauseSet} {A : List Lit} {b : Bool} {r : SolverResult} (h : MInv n F)
    (e : n.record b (MiniLib.solve n.handle A) = (.ok r, n')) : MiniOk F A b r n' := by
  have hv := LawfulMini.solveClauses n.handle A
  rw [h.clauses] at hv
  unfold Mini.record at e
  by_cases h0 : (MiniLib.solve n.handle A).1 = 0
  · rw [if_pos h0] at e
    injection e with e1 e2
    injection e1 with e1
    subst e1 e2
    exact ⟨hv, nofun, nofun, fun _ => rfl⟩
  rw [if_neg h0] at e
  by_cases h10 : (MiniLib.solve n.handle A).1 = 10
  · rw [if_pos h10] at e
    injection e with e1 e2
    injection e1 with e1
    subst e1 e2
    refine ⟨hv, fun _ => ⟨rfl, ?_⟩, nofun, nofun⟩
    obtain ⟨p, h1, h2, h3, h4⟩ := LawfulMini.solveSat n.handle A h10
    rw [h.clauses] at h2 h4
    refine ⟨p, _, h1, fun c hc l hl => ?_, h4⟩
    rcases List.mem_append.1 hc with hc | hc
    · exact h2 c hc l hl
    · obtain ⟨a, ha, rfl⟩ := List.mem_map.1 hc
      rw [List.mem_singleton.1 hl]
      exact h3 a ha
  rw [if_neg h10] at e
  by_cases h20 : (MiniLib.solve n.handle A).1 = 20
  · rw [if_pos h20] at e
    injection e with e1 e2
    injection e1 with e1
    subst e1 e2
    have := LawfulMini.solveUnsat n.handle A h20
    rw [h.clauses] at this
    exact ⟨hv, nofun, fun _ => ⟨rfl, this⟩, nofun⟩
  · rw [if_neg h20] at e
    injection e with e1 e2
    cases e1

theorem MiniOk.inv {F : ClauseSet} {A : List Lit} {b : Bool} {r : SolverResult} {n' : Mini H} (h : MiniOk F A b r n')
    (hb : b = false → A = []) : MInv n' F := by
  refine ⟨h.clauses, fun hs => ?_, fun hs => ?_, fun hs => ?_⟩
  · cases r with
    | sat =>
      obtain ⟨p, k, h1, h2, h3⟩ := (h.sat rfl).2
      exact ⟨p, k, h1, fun c hc => h2 c (List.mem_append_left _ hc), fun m hm c hc => h3 m hm c (List.mem_append_left _ hc)⟩
    | unsat => have := (h.unsat rfl).1; rw [hs] at this; cases this
    | interrupted => have := h.interrupted rfl; rw [hs] at this; cases this
  · cases r with
    | sat => have := (h.sat rfl).1; rw [hs] at this; cases this
    | unsat =>
      obtain ⟨h1, h2, _⟩ := h.unsat rfl
      rw [hs] at h1
      injection h1 with h1
      rw [hb h1.symm] at h2
      simpa [units] using h2
    | interrupted => have := h.interrupted rfl; rw [hs] at this; cases this
  · cases r with
    | sat => have := (h.sat rfl).1; rw [hs] at this; cases this
    | unsat => exact (h.unsat rfl).2.2.2
    | interrupted => have := h.interrupted rfl; rw [hs] at this; cases this

omit [LawfulMini H] in
theorem Mini.solve_cases (n : Mini H) : (n.state = .sat ∧ n.solve = (.ok .sat, n)) ∨
    (n.state = .unsat false ∧ n.solve = (.ok .unsat, n)) ∨ n.solve = n.record false (MiniLib.solve n.handle []) := by
  unfold Mini.solve
  cases hs : n.state with
  | sat => simp
  | unsat b => cases b <;> simp
  | input => simp
  | configuring => simp

/-- What holds for the wrapper after propagation. -/
structure MiniPropOk (F : ClauseSet) (A : List Lit) (r : PropagateResult) (n n' : Mini H) : Prop where
  clauses : LawfulMini.clauses n'.handle = F
  known : LawfulMini.known n'.handle = LawfulMini.known n.handle
  state : n'.state = .input
  stats : n'.stats = n.stats
  conflict : r.conflict = true → Unsatisfiable (F ++ units A)
  implied : ∀ l ∈ r.propagated, Implies (F ++ units A) l

theorem MInv.propagate_ok {n n' : Mini H} {F : ClauseSet} {A : List Lit} {s : Bool} {r : PropagateResult} (h : MInv n F)
    (e : n.propagate A s = (.ok r, n')) : MiniPropOk F A r n n' := by
  unfold Mini.propagate at e
  cases hp : MiniLib.propCheck n.handle A s with
  | none => rw [hp] at e; injection e with e _; cases e
  | some x =>
    obtain ⟨res, props, h'⟩ := x
    obtain ⟨h1, h2, h3, h4, h5⟩ := LawfulMini.propResult n.handle A s res props h' hp
    rw [h.clauses] at h1 h4 h5
    rw [hp] at e
    dsimp only at e
    rcases h3 with h3 | h3
    · rw [if_pos h3] at e
      injection e with e1 e2
      injection e1 with e1
      subst e1 e2
      exact ⟨h1, h2, rfl, rfl, nofun, h5⟩
    · rw [if_neg (by omega), if_pos h3] at e
      injection e with e1 e2
      injection e1 with e1
      subst e1 e2
      exact ⟨h1, h2, rfl, rfl, fun _ => h4 h3, h5⟩

theorem MiniReach.inv {n : Mini H} {F : ClauseSet} (h : MiniReach n F) : MInv n F := by
  induction h with
  | new => exact ⟨LawfulMini.init, nofun, nofun, nofun⟩
  | @add n F c _ ih =>
    exact ⟨(LawfulMini.addClause n.handle c).trans (by rw [ih.clauses]), nofun, nofun, nofun⟩
  | @reserve n F v _ ih =>
    obtain ⟨h1, h2, h3⟩ := LawfulMini.reserve n.handle v
    refine ⟨h1.trans ih.clauses, fun hs => ?_, ih.unsat, fun hs => ?_⟩
    · obtain ⟨p, k, q1, q2, q3⟩ := ih.sat hs
      exact ⟨p, k, fun v => by rw [← q1 v]; exact congrFun h2 v, q2, q3⟩
    · show ∀ m, _ → Clause.sat m (MiniLib.conflict (MiniLib.reserve n.handle v))
      rw [h3]
      exact ih.core hs
  | @solve n F r n' _ e ih =>
    rcases n.solve_cases with ⟨_, he⟩ | ⟨_, he⟩ | he
    · rw [he] at e; injection e with _ e; exact e ▸ ih
    · rw [he] at e; injection e with _ e; exact e ▸ ih
    · rw [he] at e; exact (mini_ok ih e).inv fun _ => rfl
  | assumps _ e ih => exact (mini_ok ih e).inv nofun
  | propagate _ e ih =>
    have := ih.propagate_ok e
    exact ⟨this.clauses, by rw [this.state]; exact nofun, by rw [this.state]; exact nofun, by rw [this.state]; exact nofun⟩

/-- The values of the positive literals only. -/
def Mini.posVal (n : Mini H) (l : Lit) : Option TernaryVal := if l.isNeg then none else (n.litVal l).toOption

omit [LawfulMini H] in
theorem Mini.litVal_eq {n : Mini H} {p : Nat → Option Bool} {k : Nat} (hs : n.state = .sat)
    (h : ∀ v, MiniLib.value n.handle v = if v < k then some (ternary (p v)) else none) (l : Lit) :
    n.litVal l = if l.var < k then .ok (ternary (p l.var)) else .panic := by
  unfold Mini.litVal Mini.cval
  rw [if_pos hs, h]
  by_cases hk : l.var < k
  · rw [if_pos hk, if_pos hk]
    cases p l.var with
    | none => rfl
    | some b => cases b <;> rfl
  · rw [if_neg hk, if_neg hk]
    rfl

omit [LawfulMini H] in
theorem Mini.posVal_gives {n : Mini H} {F : ClauseSet} (hs : n.state = .sat) (h : MiniModel n.handle F) :
    GivesModel n.posVal F ∧ ∀ c ∈ F, ∀ l ∈ c, ∃ t, n.litVal (Lit.pos l.var) = .ok t := by
  obtain ⟨p, k, h1, h2, h3⟩ := h
  have hv := Mini.litVal_eq hs h1
  refine ⟨⟨⟨fun v => (p v).getD false, fun l => ?_⟩, fun b hb => ?_⟩, fun c hc l hl => ?_⟩
  · unfold Mini.posVal Lit.holds
    cases hn : l.isNeg with
    | true => simp
    | false =>
      simp only [Bool.false_eq_true, if_false, hv]
      by_cases hk : l.var < k
      · rw [if_pos hk]
        cases hp : p l.var with
        | none => simp [Res.toOption, ternary]
        | some b => cases b <;> simp [Res.toOption, ternary]
      · rw [if_neg hk]
        simp [Res.toOption]
  · refine (fun c hc => ?_ : ClauseSet.sat b F)
    let m : Asg := fun v => if v < k then b v else (p v).getD false
    have hm : Extends p m := by
      intro v x hx
      show (if v < k then b v else (p v).getD false) = x
      by_cases hk : v < k
      · rw [if_pos hk]
        have := hb (Lit.pos v)
        unfold Mini.posVal at this
        rw [hv] at this
        simp only [Lit.isNeg_pos, Bool.false_eq_true, if_false, Lit.var_pos, if_pos hk, hx, Lit.holds_pos] at this
        cases x with
        | true => exact this.1 rfl
        | false => exact this.2 rfl
      · rw [if_neg hk, hx]
        rfl
    obtain ⟨l, hl, hlm⟩ := h3 m hm c hc
    refine ⟨l, hl, ?_⟩
    rw [← hlm]
    exact Lit.holds_congr (if_pos (h2 c hc l hl)).symm
  · rw [hv, Lit.var_pos, if_pos (h2 c hc l hl)]
    exact ⟨_, rfl⟩

/-- C71: what `solve` returns is right for the clauses added so far. (`_partial`: only the values of positive literals, and
of variables of the clauses, see `C71_violated_negative` and `C71_violated_unknown_variable`.) -/
theorem C71_solve_partial {n n' : Mini H} {F : ClauseSet} {r : SolverResult} (h : MiniReach n F)
    (e : n.solve = (.ok r, n')) :
    (r = .sat → GivesModel n'.posVal F ∧ ∀ c ∈ F, ∀ l ∈ c, ∃ t, n'.litVal (Lit.pos l.var) = .ok t) ∧
    (r = .unsat → Unsatisfiable F ∧ n'.core = .ok []) := by
  have hi := h.inv
  rcases n.solve_cases with ⟨hs, he⟩ | ⟨hs, he⟩ | he
  · rw [he] at e
    injection e with e1 e2
    injection e1 with e1
    subst e1 e2
    exact ⟨fun _ => Mini.posVal_gives hs (hi.sat hs), nofun⟩
  · rw [he] at e
    injection e with e1 e2
    injection e1 with e1
    subst e1 e2
    exact ⟨nofun, fun _ => ⟨hi.unsat hs, by unfold Mini.core; rw [hs]⟩⟩
  · rw [he] at e
    have q := mini_ok hi e
    refine ⟨fun hr => ?_, fun hr => ?_⟩
    · obtain ⟨hs, hm⟩ := q.sat hr
      exact Mini.posVal_gives hs (by simpa [units] using hm)
    · obtain ⟨hs, hm, _⟩ := q.unsat hr
      exact ⟨by simpa [units] using hm, by unfold Mini.core; rw [hs]⟩

/-- C71: what `solve_assumps` returns is right for the clauses added so far and the assumptions of this call; the core
consists of negated assumptions and is a consequence of the clauses. (`_partial` as before.) -/
theorem C71_assumps_partial {n n' : Mini H} {F : ClauseSet} {A : List Lit} {r : SolverResult} (h : MiniReach n F)
    (e : n.solveAssumps A = (.ok r, n')) :
    (r = .sat → GivesModel n'.posVal (F ++ units A) ∧
      ∀ c ∈ F ++ units A, ∀ l ∈ c, ∃ t, n'.litVal (Lit.pos l.var) = .ok t) ∧
    (r = .unsat → Unsatisfiable (F ++ units A) ∧ ∃ core, n'.core = .ok core ∧ (∀ l ∈ core, l.neg ∈ A) ∧
      ∀ m, ClauseSet.sat m F → Clause.sat m core) := by
  have q := mini_ok h.inv e
  refine ⟨fun hr => ?_, fun hr => ?_⟩
  · obtain ⟨hs, hm⟩ := q.sat hr
    exact Mini.posVal_gives hs hm
  · obtain ⟨hs, hm, hA, hc⟩ := q.unsat hr
    exact ⟨hm, _, by unfold Mini.core; rw [hs], hA, hc⟩

/-- C71: the errors name the state that is needed and the state of the solver. -/
theorem C71_errors (n : Mini H) (l : Lit) :
    (n.state = .configuring → n.litVal l = .err (.state .sat .configuring) ∧ n.core = .err (.state .unsat .configuring)) ∧
    (n.state = .input → n.litVal l = .err (.state .sat .input) ∧ n.core = .err (.state .unsat .input)) ∧
    (n.state = .sat → n.core = .err (.state .unsat .sat)) ∧
    (∀ b, n.state = .unsat b → n.litVal l = .err (.state .sat .unsat)) := by
  refine ⟨fun h => ?_, fun h => ?_, fun h => ?_, fun b h => ?_⟩
  · unfold Mini.litVal Mini.core; rw [h]; exact ⟨rfl, rfl⟩
  · unfold Mini.litVal Mini.core; rw [h]; exact ⟨rfl, rfl⟩
  · unfold Mini.core; rw [h]; rfl
  · unfold Mini.litVal; rw [h]; rfl

/-- C71: at any time, values can be read after `Sat` only and a core after `Unsat` only, and they are right for the clauses
added so far; queries do not fail; and clauses are counted. (`_partial` as before.) -/
theorem C71_states_partial {n : Mini H} {F : ClauseSet} (h : MiniReach n F) :
    (n.state = .sat → GivesModel n.posVal F) ∧
    (n.state ≠ .sat → ∀ l, n.litVal l = .err (.state .sat n.state.toExternal)) ∧
    (∀ core, n.core = .ok core → ∀ m, ClauseSet.sat m F → Clause.sat m core) ∧
    ((∀ b, n.state ≠ .unsat b) → n.core = .err (.state .unsat n.state.toExternal)) ∧
    (∃ r n', n.solve = (.ok r, n')) ∧ (∀ A, ∃ r n', n.solveAssumps A = (.ok r, n')) ∧
    n.stats.nClauses = F.length := by
  have hi := h.inv
  have hrec : ∀ b A, ∃ r n', n.record b (MiniLib.solve n.handle A) = (.ok r, n') := by
    intro b A
    unfold Mini.record
    rcases LawfulMini.solveResult n.handle A with h0 | h0 | h0
    · rw [if_pos h0]; exact ⟨_, _, rfl⟩
    · rw [if_neg (by omega), if_pos h0]; exact ⟨_, _, rfl⟩
    · rw [if_neg (by omega), if_neg (by omega), if_pos h0]; exact ⟨_, _, rfl⟩
  refine ⟨fun hs => (Mini.posVal_gives hs (hi.sat hs)).1, fun hs l => ?_, fun core hc m hm => ?_, fun hs => ?_, ?_,
    fun A => hrec _ _, ?_⟩
  · unfold Mini.litVal
    rw [if_neg hs]
  · cases hs : n.state with
    | unsat b =>
      unfold Mini.core at hc
      rw [hs] at hc
      cases b with
      | true => injection hc with hc; exact hc ▸ hi.core hs m hm
      | false => exact absurd ⟨m, hm⟩ (hi.unsat hs)
    | _ => unfold Mini.core at hc; rw [hs] at hc; cases hc
  · unfold Mini.core
    cases hs' : n.state with
    | unsat b => exact absurd hs' (hs b)
    | _ => rfl
  · rcases n.solve_cases with ⟨_, he⟩ | ⟨_, he⟩ | he
    · exact ⟨_, _, he⟩
    · exact ⟨_, _, he⟩
    · rw [he]; exact hrec _ _
  · have hst : ∀ {n n' : Mini H} {b p r}, n.record b p = (.ok r, n') → n'.stats.nClauses = n.stats.nClauses := by
      intro n n' b p r e
      unfold Mini.record at e
      by_cases h0 : p.1 = 0
      · rw [if_pos h0] at e; injection e with _ e; subst e; rfl
      rw [if_neg h0] at e
      by_cases h1 : p.1 = 10
      · rw [if_pos h1] at e; injection e with _ e; subst e; rfl
      rw [if_neg h1] at e
      by_cases h2 : p.1 = 20
      · rw [if_pos h2] at e; injection e with _ e; subst e; rfl
      rw [if_neg h2] at e
      injection e with e _
      cases e
    clear hrec
    clear hi
    induction h with
    | new => rfl
    | add c _ ih => simp [Mini.addClause, ih]
    | reserve v _ ih => exact ih
    | @solve n F r n' _ e ih =>
      rcases n.solve_cases with ⟨_, he⟩ | ⟨_, he⟩ | he
      · rw [he] at e; injection e with _ e; exact e ▸ ih
      · rw [he] at e; injection e with _ e; exact e ▸ ih
      · rw [he] at e; rw [hst e, ih]
    | assumps _ e ih => rw [hst e, ih]
    | propagate h e ih => rw [(h.inv.propagate_ok e).stats, ih]

end

/-- A small library, like `ToyLib`. -/
structure ToyMini where
  clauses : ClauseSet := []
  model : Nat → Option Bool := fun _ => none
  vars : Nat := 0
  conflict : List Lit := []
  known : Nat := 0

namespace ToyMini

/-- A number larger than all variables. -/
def bound (F : ClauseSet) : Nat := F.foldr (fun c k => c.foldr (fun l k => max (l.var + 1) k) k) 0

theorem le_foldr (c : Clause) (k : Nat) : k ≤ c.foldr (fun l k => max (l.var + 1) k) k ∧
    ∀ l ∈ c, l.var < c.foldr (fun l k => max (l.var + 1) k) k := by
  induction c with
  | nil => exact ⟨Nat.le_refl k, nofun⟩
  | cons a c ih =>
    rw [List.foldr_cons]
    refine ⟨by omega, fun l hl => ?_⟩
    rcases List.mem_cons.1 hl with rfl | hl
    · omega
    · have := ih.2 l hl; omega

theorem lt_bound (F : ClauseSet) : ∀ c ∈ F, ∀ l ∈ c, l.var < bound F := by
  induction F with
  | nil => exact nofun
  | cons d F ih =>
    intro c hc l hl
    have h := le_foldr d (bound F)
    show l.var < d.foldr (fun l k => max (l.var + 1) k) (bound F)
    rcases List.mem_cons.1 hc with rfl | hc
    · exact h.2 l hl
    · have := ih c hc l hl; omega

/-- A query. -/
def run (g : ToyMini) (A : List Lit) : Int × ToyMini :=
  let h := { g with known := max g.known (bound (units A)) }
  if ToyLib.good (h.clauses ++ units A) then
    (10, { h with model := ToyLib.values (h.clauses ++ units A), vars := bound (h.clauses ++ units A) })
  else if ToyLib.bad (h.clauses ++ units A) then (20, { h with conflict := A.map Lit.neg })
  else (0, h)

/-- Propagation: the unit clauses. -/
def prop (h : ToyMini) (A : List Lit) : Option (Int × List Lit × ToyMini) :=
  if A.all fun l => l.var < h.known then
    some (if ToyLib.bad (h.clauses ++ units A) then 20 else 10,
      (h.clauses ++ units A).filterMap (fun c => match c with | [l] => some l | _ => none), h)
  else none

instance : MiniLib ToyMini where
  init := {}
  addClause h c := { h with clauses := h.clauses ++ [c], known := max h.known (bound [c]) }
  solve := run
  value h v := if v < h.vars then some (ternary (h.model v)) else none
  conflict h := h.conflict
  reserve h v := { h with known := max h.known (v + 1) }
  propCheck h A _ := h.prop A

theorem run_cases (h : ToyMini) (A : List Lit) :
    (ToyLib.good (h.clauses ++ units A) = true ∧ h.run A =
      (10, { h with known := max h.known (bound (units A)), model := ToyLib.values (h.clauses ++ units A), vars := bound (h.clauses ++ units A) })) ∨
    (ToyLib.bad (h.clauses ++ units A) = true ∧ h.run A =
      (20, { h with known := max h.known (bound (units A)), conflict := A.map Lit.neg })) ∨
    h.run A = (0, { h with known := max h.known (bound (units A)) }) := by
  unfold run
  dsimp only
  by_cases h1 : ToyLib.good (h.clauses ++ units A) = true
  · exact .inl ⟨h1, if_pos h1⟩
  · rw [if_neg h1]
    by_cases h2 : ToyLib.bad (h.clauses ++ units A) = true
    · exact .inr (.inl ⟨h2, if_pos h2⟩)
    · exact .inr (.inr (if_neg h2))

instance : LawfulMini ToyMini where
  clauses := clauses
  vars := vars
  known := known
  knownAdd h c := ⟨Nat.le_max_left _ _, fun l hl => Nat.lt_of_lt_of_le (lt_bound [c] c (by simp) l hl) (Nat.le_max_right _ _)⟩
  knownReserve h v := ⟨Nat.le_max_left _ _, Nat.lt_of_lt_of_le (Nat.lt_succ_self v) (Nat.le_max_right _ _)⟩
  knownSolve h A := by
    show h.known ≤ (h.run A).2.known ∧ ∀ l ∈ A, l.var < (h.run A).2.known
    have : (h.run A).2.known = max h.known (bound (units A)) := by
      rcases h.run_cases A with ⟨_, e⟩ | ⟨_, e⟩ | e <;> rw [e]
    rw [this]
    refine ⟨Nat.le_max_left _ _, fun l hl => Nat.lt_of_lt_of_le ?_ (Nat.le_max_right _ _)⟩
    exact lt_bound (units A) [l] (List.mem_map_of_mem hl) l (by simp)
  propTotal h A s hA := ⟨_, if_pos (List.all_eq_true.2 fun l hl => decide_eq_true (hA l hl))⟩
  propResult h A s r ls h' e := by
    change h.prop A = _ at e
    unfold prop at e
    by_cases hk : (A.all fun l => decide (l.var < h.known)) = true
    · rw [if_pos hk] at e
      injection e with e
      injection e with e1 e2
      injection e2 with e2 e3
      subst e1 e2 e3
      refine ⟨rfl, rfl, ?_, fun h20 => ?_, fun l hl m hm => ?_⟩
      · split <;> simp
      · by_cases hb : ToyLib.bad (h.clauses ++ units A) = true
        · exact ToyLib.bad_unsat hb
        · rw [if_neg hb] at h20; exact absurd h20 (by decide)
      · obtain ⟨c, hc, hcl⟩ := List.mem_filterMap.1 hl
        match c, hcl with
        | [k], hk =>
          injection hk with hk
          subst hk
          obtain ⟨a, ha, hh⟩ := hm _ hc
          rw [List.mem_singleton.1 ha] at hh
          exact hh
    · rw [if_neg hk] at e
      cases e
  init := rfl
  addClause _ _ := rfl
  reserve _ _ := ⟨rfl, rfl, rfl⟩
  solveClauses h A := by
    show (h.run A).2.clauses = _
    rcases h.run_cases A with ⟨_, e⟩ | ⟨_, e⟩ | e <;> rw [e]
  solveResult h A := by
    show (h.run A).1 = 0 ∨ (h.run A).1 = 10 ∨ (h.run A).1 = 20
    rcases h.run_cases A with ⟨_, e⟩ | ⟨_, e⟩ | e <;> rw [e] <;> simp
  solveSat h A h10 := by
    change (h.run A).1 = 10 at h10
    rcases h.run_cases A with ⟨hg, e⟩ | ⟨_, e⟩ | e
    · refine ⟨ToyLib.values (h.clauses ++ units A), ?_⟩
      show (∀ v, (if v < (h.run A).2.vars then some (ternary ((h.run A).2.model v)) else none) =
        if v < (h.run A).2.vars then _ else _) ∧ (∀ c ∈ h.clauses, ∀ l ∈ c, l.var < (h.run A).2.vars) ∧
        (∀ l ∈ A, l.var < (h.run A).2.vars) ∧ _
      rw [e]
      refine ⟨fun v => rfl, fun c hc => lt_bound _ c (List.mem_append_left _ hc), fun l hl => ?_, ToyLib.good_sat hg⟩
      exact lt_bound (h.clauses ++ units A) [l] (List.mem_append_right _ (List.mem_map_of_mem hl)) l (by simp)
    · rw [e] at h10; exact absurd h10 (by simp)
    · rw [e] at h10; exact absurd h10 (by simp)
  solveUnsat h A h20 := by
    change (h.run A).1 = 20 at h20
    rcases h.run_cases A with ⟨_, e⟩ | ⟨hb, e⟩ | e
    · rw [e] at h20; exact absurd h20 (by simp)
    · have hu := ToyLib.bad_unsat hb
      refine ⟨hu, ?_⟩
      show (∀ l ∈ (h.run A).2.conflict, l.neg ∈ A) ∧ ∀ m, _ → Clause.sat m (h.run A).2.conflict
      rw [e]
      refine ⟨fun l hl => ?_, fun m hm => core_sat hu m hm⟩
      obtain ⟨a, ha, rfl⟩ := List.mem_map.1 hl
      rw [Lit.neg_neg]
      exact ha
    · rw [e] at h20; exact absurd h20 (by simp)

end ToyMini

/-- The hypotheses hold for a history with a satisfiable query, an unsatisfiable one under assumptions, reserved variables and
a clause that is added later. -/
example : ∃ n1 n2 n3 n4 : Mini ToyMini, MiniReach n4 [[Lit.pos 0], [Lit.pos 3]] ∧
    (Mini.new.addClause [Lit.pos 0]).solve = (.ok .sat, n1) ∧ n1.litVal (Lit.pos 0) = .ok .true ∧
    (n1.reserve 8).solveAssumps [Lit.pos 1, Lit.negOf 0] = (.ok .unsat, n2) ∧ n2.core = .ok [Lit.negOf 1, Lit.pos 0] ∧
    (n2.addClause [Lit.pos 3]).solve = (.ok .sat, n3) ∧ n3.solveAssumps [Lit.negOf 3] = (.ok .unsat, n4) := by
  refine ⟨_, _, _, _, ?_, (eq_pair_of_fst (by decide)), (by decide), (eq_pair_of_fst (by decide)), (by decide),
    (eq_pair_of_fst (by decide)), (eq_pair_of_fst (by decide))⟩
  have h1 := (MiniReach.new (H := ToyMini)).add [Lit.pos 0]
  have h2 := h1.solve (r := .sat) (eq_pair_of_fst (by decide))
  have h3 := (h2.reserve 8).assumps (A := [Lit.pos 1, Lit.negOf 0]) (r := .unsat) (eq_pair_of_fst (by decide))
  have h4 := (h3.add [Lit.pos 3]).solve (r := .sat) (eq_pair_of_fst (by decide))
  exact h4.assumps (A := [Lit.negOf 3]) (r := .unsat) (eq_pair_of_fst (by decide))

/-- C71 is violated: `lit_val` of a negative literal returns the value of the variable. After `Sat` both a literal and its
negation are reported true, and no assignment agrees with the values of the literals. -/
theorem C71_violated_negative : ∃ n : Mini ToyMini, (Mini.new.addClause [Lit.pos 0]).solve = (.ok .sat, n) ∧
    n.litVal (Lit.pos 0) = .ok .true ∧ n.litVal (Lit.negOf 0) = .ok .true ∧
    ¬ GivesModel (fun l => (n.litVal l).toOption) [[Lit.pos 0]] := by
  refine ⟨_, (eq_pair_of_fst (by decide)), by decide, by decide, ?_⟩
  rintro ⟨⟨b, hb⟩, _⟩
  have h1 := (hb (Lit.pos 0)).1 (by decide)
  have h2 := (hb (Lit.negOf 0)).1 (by decide)
  rw [Lit.holds_pos] at h1
  rw [Lit.holds_negOf, h1] at h2
  cases h2

/-- C71 is violated: `lit_val` of a variable that the solver did not know when it solved is an access out of bounds, even if
the variable was reserved since. -/
theorem C71_violated_unknown_variable : ∃ n : Mini ToyMini, (Mini.new.addClause [Lit.pos 0]).solve = (.ok .sat, n) ∧
    n.litVal (Lit.pos 1) = .panic ∧ (n.reserve 1).litVal (Lit.pos 1) = .panic :=
  ⟨_, (eq_pair_of_fst (by decide)), by decide, by decide⟩

/-! ### C72 -/

section
variable {H : Type} [KissatLib H] [LawfulKissat H]

theorem passClause_view : ∀ (c : Clause) (h h' : H), LawfulKissat.searched h = false → Kissat.passClause h c = some h' →
    LawfulKissat.searched h' = false ∧ LawfulKissat.view h' =
      { LawfulKissat.view h with
        clauses := (LawfulKissat.view h).clauses ++ [(LawfulKissat.view h).pending ++ c], pending := [] } := by
  intro c
  induction c with
  | nil =>
    intro h h' hs e
    obtain ⟨h'', e', hs', hv⟩ := LawfulKissat.addEnd h hs
    have e : KissatLib.add h 0 = some h' := e
    rw [e'] at e
    injection e with e
    subst e
    exact ⟨hs', by rw [hv]; simp⟩
  | cons l c ih =>
    intro h h' hs e
    rcases Lit.cInt_cases l with ⟨z, ez⟩ | ⟨ez, _⟩
    · simp only [Kissat.passClause, ez, Option.bind_some] at e
      have hz : z.natAbs ≤ kissatMaxVar := by
        by_cases hz : z.natAbs ≤ kissatMaxVar
        · exact hz
        · simp only [LawfulKissat.addAborts h z (.inr (Nat.lt_of_not_le hz)), Option.bind_none, reduceCtorEq] at e
      obtain ⟨h'', e', hs', hv⟩ := LawfulKissat.addLit h l z ez hz hs
      rw [e', Option.bind_some] at e
      obtain ⟨h1, h2⟩ := ih h'' h' hs' e
      exact ⟨h1, by rw [h2, hv]; simp⟩
    · simp only [Kissat.passClause, ez, Option.bind_none] at e
      cases e

theorem Lit.cInt_natAbs {l : Lit} {z : Int} (e : l.cInt = some z) : z.natAbs = l.var + 1 := by
  have := (Lit.cInt_some e).2
  split at this <;> omega

theorem passClause_total : ∀ (c : Clause) (h : H), LawfulKissat.searched h = false → (∀ l ∈ c, l.var < kissatMaxVar) →
    ∃ h', Kissat.passClause h c = some h' := by
  intro c
  induction c with
  | nil =>
    intro h hs _
    obtain ⟨h', e, _⟩ := LawfulKissat.addEnd h hs
    exact ⟨h', e⟩
  | cons l c ih =>
    intro h hs hr
    have hl := hr l List.mem_cons_self
    obtain ⟨z, ez⟩ := Lit.cInt_of_inRange (l := l) (by unfold Lit.InRange i32Max; unfold kissatMaxVar at hl; omega)
    obtain ⟨h', e, hs', _⟩ := LawfulKissat.addLit h l z ez (by rw [Lit.cInt_natAbs ez]; exact hl) hs
    simp only [Kissat.passClause, ez, Option.bind_some, e]
    exact ih h' hs' fun l hl => hr l (List.mem_cons_of_mem _ hl)

theorem passClause_aborts {l : Lit} (hl : kissatMaxVar ≤ l.var) : ∀ (c : Clause) (h : H), l ∈ c →
    Kissat.passClause h c = none := by
  intro c
  induction c with
  | nil => nofun
  | cons x c ih =>
    intro h hm
    rcases Lit.cInt_cases x with ⟨z, ez⟩ | ⟨ez, _⟩
    · simp only [Kissat.passClause, ez, Option.bind_some]
      rcases List.mem_cons.1 hm with rfl | hm
      · rw [LawfulKissat.addAborts h z (.inr (by rw [Lit.cInt_natAbs ez]; omega))]
        rfl
      · cases KissatLib.add h z with
        | none => rfl
        | some h' => exact ih h' hm
    · simp only [Kissat.passClause, ez, Option.bind_none]

/-- The invariant of the wrapper. -/
structure KInv (n : Native H) (F : ClauseSet) (over : Bool) : Prop where
  view : LawfulKissat.view n.handle = { clauses := F }
  fresh : over = false → (n.state = .input ∨ n.state = .configuring) → LawfulKissat.searched n.handle = false
  sat : n.state = .sat → ReportsModel (fun z => (KissatLib.val n.handle z).getD 0) False F
  unsat : ∀ core, n.state = .unsat core → Unsatisfiable F

theorem Kissat.litVal_gives {n : Native H} {F : ClauseSet} (hs : n.state = .sat)
    (h : ReportsModel (fun z => (KissatLib.val n.handle z).getD 0) False F) : GivesModel (fun l => (Kissat.litVal n l).toOption) F := by
  refine h.gives _ (fun l hl => ?_) fun l z e hz => ?_
  · rcases Lit.cInt_cases l with ⟨z, e⟩ | ⟨e, _⟩
    · exact absurd (Lit.cInt_some e).1 hl
    · simp only [Kissat.litVal, if_pos hs, e]
      rfl
  · simp only [Kissat.litVal, if_pos hs, e]
    cases KissatLib.val n.handle z with
    | none => simp [Res.toOption]; omega
    | some w =>
    simp only [Option.getD_some]
    by_cases h0 : w = 0
    · rw [if_pos h0]; simp [Res.toOption]; omega
    · rw [if_neg h0]
      by_cases h1 : w = z
      · rw [if_pos h1]; simp [Res.toOption]; omega
      · rw [if_neg h1]
        by_cases h2 : w = -z
        · rw [if_pos h2]; simp [Res.toOption]; omega
        · rw [if_neg h2]; simp [Res.toOption]; omega

omit [LawfulKissat H] in
theorem Kissat.solve_cases (n : Native H) : (n.state = .sat ∧ Kissat.solve n = (.ok .sat, n)) ∨
    (∃ core, n.state = .unsat core ∧ Kissat.solve n = (.ok .unsat, n)) ∨
    ((n.state = .input ∨ n.state = .configuring) ∧ Kissat.solve n =
      match KissatLib.solve n.handle with
      | none => (.panic, n)
      | some r => Kissat.record n r) := by
  unfold Kissat.solve
  cases hs : n.state with
  | sat => simp
  | unsat c => simp
  | input => exact .inr (.inr ⟨.inl rfl, rfl⟩)
  | configuring => exact .inr (.inr ⟨.inr rfl, rfl⟩)

/-- A query before which the library was not used for one. -/
theorem kissat_query {n : Native H} {F : ClauseSet} (hv : LawfulKissat.view n.handle = { clauses := F })
    (hf : LawfulKissat.searched n.handle = false) : ∃ r n', (match KissatLib.solve n.handle with
      | none => (.panic, n)
      | some r => Kissat.record n r) = (.ok r, n') ∧ LawfulKissat.view n'.handle = { clauses := F } ∧
      n'.stats.nClauses = n.stats.nClauses ∧ n'.stats.maxVar = n.stats.maxVar ∧
      match r with
      | .sat => n'.state = .sat ∧ ReportsModel (fun z => (KissatLib.val n'.handle z).getD 0) False F
      | .unsat => n'.state = .unsat [] ∧ Unsatisfiable F
      | .interrupted => n'.state = .input := by
  obtain ⟨x, h', e, hx, _, hv'⟩ := LawfulKissat.solve n.handle hf
  rw [e]
  have hv' := hv'.trans hv
  show ∃ r n', Kissat.record n (x, h') = (.ok r, n') ∧ _
  unfold Kissat.record
  rcases hx with rfl | rfl | rfl
  · exact ⟨.interrupted, _, if_pos rfl, hv', rfl, rfl, rfl⟩
  · refine ⟨.sat, _, (if_neg (by simp)).trans (if_pos rfl), hv', rfl, rfl, rfl, ?_⟩
    have := LawfulKissat.solveSat _ _ e
    rw [hv] at this
    exact this
  · refine ⟨.unsat, _, (if_neg (by simp)).trans ((if_neg (by simp)).trans (if_pos rfl)), hv', rfl, rfl, rfl, ?_⟩
    have := LawfulKissat.solveUnsat _ _ e
    rw [hv] at this
    exact this

theorem KissatReach.inv {n : Native H} {F : ClauseSet} {over : Bool} (h : KissatReach n F over) : KInv n F over ∧
    n.stats.nClauses = F.length ∧ HighestVar F n.stats.maxVar := by
  induction h with
  | new =>
    exact ⟨⟨LawfulKissat.init.1, fun _ _ => LawfulKissat.init.2, nofun, nofun⟩, rfl, fun _ => nofun, nofun⟩
  | @add n F c n' _ e ih =>
    obtain ⟨ih, ih2, ih3⟩ := ih
    unfold Kissat.addClause at e
    by_cases hs : n.state = .input ∨ n.state = .configuring
    · rw [if_pos hs] at e
      cases hp : Kissat.passClause n.handle c with
      | none => rw [hp] at e; injection e with e _; cases e
      | some h' =>
        rw [hp] at e
        injection e with _ e
        subst e
        obtain ⟨h1, h2⟩ := passClause_view c n.handle h' (ih.fresh rfl hs) hp
        rw [ih.view] at h2
        exact ⟨⟨by simpa using h2, fun _ _ => h1, nofun, nofun⟩, by simp [ih2], HighestVar.add c [] ih3.nil⟩
    · rw [if_neg hs] at e
      injection e with e _
      cases e
  | @addErr n F c x n' _ e ih =>
    unfold Kissat.addClause at e
    by_cases hs : n.state = .input ∨ n.state = .configuring
    · rw [if_pos hs] at e
      cases hp : Kissat.passClause n.handle c with
      | none => rw [hp] at e; injection e with e _; cases e
      | some h' => rw [hp] at e; injection e with e _; cases e
    · rw [if_neg hs] at e
      injection e with _ e
      exact e ▸ ih
  | @reserve n F v n' _ h1 h2 e ih =>
    obtain ⟨ih, ih2, ih3⟩ := ih
    unfold Kissat.reserve at e
    rcases Lit.cInt_cases (Lit.pos v) with ⟨z, ez⟩ | ⟨ez, _⟩
    · rw [ez, Option.bind_some] at e
      by_cases hz : z.natAbs ≤ kissatMaxVar
      case neg =>
        rw [LawfulKissat.reserveAborts _ _ (Nat.lt_of_not_le hz)] at e
        cases e
      have hz0 : 0 ≤ z := by
        have := (Lit.cInt_some ez).2
        rw [Lit.isNeg_pos] at this
        simp at this
        omega
      obtain ⟨h', eh, hv, hs⟩ := LawfulKissat.reserve n.handle z hz0 hz
      rw [eh, Option.map_some] at e
      injection e with e
      subst e
      refine ⟨⟨hv.trans ih.view, fun _ _ => hs.trans (ih.fresh rfl ?_), nofun, nofun⟩, ih2, ih3⟩
      cases hst : n.state with
      | sat => exact absurd hst h1
      | unsat c => exact absurd hst (h2 c)
      | input => exact .inl rfl
      | configuring => exact .inr rfl
    · rw [ez] at e
      cases e
  | @solve n F r n' _ e ih =>
    obtain ⟨ih, ih2, ih3⟩ := ih
    rcases Kissat.solve_cases n with ⟨hs, he⟩ | ⟨core, hs, he⟩ | ⟨hs, he⟩
    · rw [he] at e
      injection e with e1 e2
      injection e1 with e1
      subst e1 e2
      exact ⟨⟨ih.view, fun _ h => (by rcases h with h | h <;> rw [hs] at h <;> cases h), ih.sat, ih.unsat⟩, ih2, ih3⟩
    · rw [he] at e
      injection e with e1 e2
      injection e1 with e1
      subst e1 e2
      exact ⟨⟨ih.view, fun _ h => (by rcases h with h | h <;> rw [hs] at h <;> cases h), ih.sat, ih.unsat⟩, ih2, ih3⟩
    · rw [he] at e
      obtain ⟨r', n'', e', hv, h1, h2, h3⟩ := kissat_query ih.view (ih.fresh rfl hs)
      rw [e'] at e
      injection e with e1 e2
      injection e1 with e1
      subst e1 e2
      rw [h1, h2]
      refine ⟨?_, ih2, ih3⟩
      cases r' with
      | sat =>
        refine ⟨hv, fun _ h => ?_, fun _ => h3.2, fun c h => ?_⟩
        · rcases h with h | h <;> rw [h3.1] at h <;> cases h
        · rw [h3.1] at h; cases h
      | unsat =>
        refine ⟨hv, fun _ h => ?_, fun h => ?_, fun _ _ => h3.2⟩
        · rcases h with h | h <;> rw [h3.1] at h <;> cases h
        · rw [h3.1] at h; cases h
      | interrupted =>
        have h3 : n''.state = .input := h3
        refine ⟨hv, fun h => by simp at h, fun h => ?_, fun c h => ?_⟩
        · rw [h3] at h; cases h
        · rw [h3] at h; cases h

/-- C72: `solve` returns a result that is right for the clauses added so far, without aborting. (`_partial`: not after
`Interrupted`, and not after `reserve` in the states `Sat` and `Unsat`, see `C72_violated_interrupted` and
`C72_violated_reserve`.) -/
theorem C72_solve_partial {n : Native H} {F : ClauseSet} (h : KissatReach n F false) :
    ∃ r n', Kissat.solve n = (.ok r, n') ∧
      (r = .sat → GivesModel (fun l => (Kissat.litVal n' l).toOption) F) ∧ (r = .unsat → Unsatisfiable F) := by
  have hi := h.inv.1
  rcases Kissat.solve_cases n with ⟨hs, he⟩ | ⟨core, hs, he⟩ | ⟨hs, he⟩
  · exact ⟨_, _, he, fun _ => Kissat.litVal_gives hs (hi.sat hs), nofun⟩
  · exact ⟨_, _, he, nofun, fun _ => hi.unsat _ hs⟩
  · rw [he]
    obtain ⟨r, n', e, _, _, _, h3⟩ := kissat_query hi.view (hi.fresh rfl hs)
    refine ⟨r, n', e, fun hr => ?_, fun hr => ?_⟩
    · subst hr; exact Kissat.litVal_gives h3.1 h3.2
    · subst hr; exact h3.2

/-- C72: a clause whose variables are at most the greatest one of Kissat is added before the query, and refused with an error that leaves the solver
as it was after the query; values read after `Sat` are right; the statistics are those of the clauses. (`_partial` as
before.) -/
theorem C72_states_partial {n : Native H} {F : ClauseSet} (h : KissatReach n F false) :
    ((n.state = .input ∨ n.state = .configuring) → ∀ c : Clause, (∀ l ∈ c, l.var < kissatMaxVar) →
      ∃ n', Kissat.addClause n c = (.ok (), n')) ∧
    (n.state = .sat ∨ (∃ core, n.state = .unsat core) → ∀ c : Clause,
      Kissat.addClause n c = (.err (.state .input n.state.toExternal), n)) ∧
    (n.state = .sat → GivesModel (fun l => (Kissat.litVal n l).toOption) F) ∧
    (n.state ≠ .sat → ∀ l, Kissat.litVal n l = .err (.state .sat n.state.toExternal)) ∧
    n.stats.nClauses = F.length ∧ HighestVar F n.stats.maxVar := by
  obtain ⟨hi, h2, h3⟩ := h.inv
  refine ⟨fun hs c hc => ?_, fun hs c => ?_, fun hs => Kissat.litVal_gives hs (hi.sat hs), fun hs l => ?_, h2, h3⟩
  · obtain ⟨h', e⟩ := passClause_total c n.handle (hi.fresh rfl hs) hc
    exact ⟨_, by unfold Kissat.addClause; rw [if_pos hs, e]⟩
  · unfold Kissat.addClause
    rw [if_neg]
    rintro (h | h)
    · rcases hs with hs | ⟨c, hs⟩ <;> rw [h] at hs <;> cases hs
    · rcases hs with hs | ⟨c, hs⟩ <;> rw [h] at hs <;> cases hs
  · unfold Kissat.litVal
    rw [if_neg hs]

end

instance : KissatLib ToyLib where
  init := {}
  add h z := if h.searched = true ∨ kissatMaxVar < z.natAbs then none else some (Ipasir.add h z)
  solve h := if h.searched then none else
    some ((ToyLib.run { view := { clauses := h.view.clauses } }).1,
      { (ToyLib.run { view := { clauses := h.view.clauses } }).2 with view := h.view })
  val h z := if kissatMaxVar < z.natAbs then none else some (ToyLib.val h.model z)
  reserve h z := if kissatMaxVar < z.natAbs then none else some h

theorem ToyLib.add_searched (h : ToyLib) (z : Int) : (Ipasir.add h z).searched = h.searched := by
  show (if z = 0 then _ else _ : ToyLib).searched = _
  by_cases hz : z = 0
  · rw [if_pos hz]
  · rw [if_neg hz]

theorem ToyLib.formula_clauses (F : ClauseSet) : ({ clauses := F } : LibView).formula = F := by
  simp [LibView.formula, units]

theorem ToyLib.kissat_solve {h h' : ToyLib} {z : Int} (e : KissatLib.solve h = some (z, h')) :
    (ToyLib.run { view := { clauses := h.view.clauses } }).1 = z ∧
    h' = { (ToyLib.run { view := { clauses := h.view.clauses } }).2 with view := h.view } := by
  cases hs : h.searched with
  | true =>
    have : KissatLib.solve h = none := if_pos hs
    rw [this] at e
    cases e
  | false =>
    have : KissatLib.solve h = some ((ToyLib.run { view := { clauses := h.view.clauses } }).1,
      { (ToyLib.run { view := { clauses := h.view.clauses } }).2 with view := h.view }) := if_neg (by rw [hs]; nofun)
    rw [this] at e
    injection e with e
    injection e with e1 e2
    exact ⟨e1, e2.symm⟩

instance : LawfulKissat ToyLib where
  view := ToyLib.view
  searched := ToyLib.searched
  init := ⟨rfl, rfl⟩
  addLit h l z e hz hs := ⟨Ipasir.add h z, if_neg (by rw [hs]; rintro (h | h) <;> first | cases h | omega), by rw [ToyLib.add_searched, hs],
    LawfulIpasir.addLit h l z e⟩
  addEnd h hs := ⟨Ipasir.add h 0, if_neg (by rw [hs]; rintro (h | h) <;> cases h), by rw [ToyLib.add_searched, hs], LawfulIpasir.addEnd h⟩
  addAborts h z hs := if_pos hs
  reserve h _ _ hz := ⟨h, if_neg (by omega), rfl, rfl⟩
  reserveAborts _ _ hz := if_pos hz
  val h z := by
    show (if _ then _ else _) = none ↔ _
    split <;> simp_all
  solve h hs := ⟨_, _, if_neg (by rw [hs]; nofun), ToyLib.run_result _, (ToyLib.run_view _).2, rfl⟩
  solveAborts h hs := if_pos hs
  solveSat h h' e := by
    obtain ⟨e1, rfl⟩ := ToyLib.kissat_solve e
    obtain ⟨h1, h2⟩ := ToyLib.run_sat e1
    show ReportsModel (fun z => (if kissatMaxVar < z.natAbs then none else
      some (ToyLib.val (ToyLib.run { view := { clauses := h.view.clauses } }).2.model z)).getD 0) _ h.view.clauses
    rw [h2, ToyLib.formula_clauses]
    rw [ToyLib.formula_clauses] at h1
    refine ⟨ToyLib.values h.view.clauses, ToyLib.good_range h1, fun l z e => ?_, ToyLib.good_sat h1⟩
    unfold ToyLib.val
    simp only [(ToyLib.lit_eq e).1]
    refine ⟨fun b hb => ?_, fun hb => ?_⟩
    · have := ToyLib.good_small h1 _ _ hb
      rw [if_neg (by rw [Lit.cInt_natAbs e]; omega), hb]
      rfl
    · rw [hb]
      refine .inl ?_
      split <;> rfl
  solveUnsat h h' e := by
    obtain ⟨e1, rfl⟩ := ToyLib.kissat_solve e
    have h1 := (ToyLib.run_unsat e1).1
    rw [ToyLib.formula_clauses] at h1
    exact ToyLib.bad_unsat h1

/-- The hypotheses hold for histories with a satisfiable and an unsatisfiable query, reserved variables, and clauses that are
refused after the query. -/
example : ∃ n n' : Native ToyLib, KissatReach n [[Lit.pos 0], [Lit.negOf 1, Lit.pos 2]] false ∧ n.state = .sat ∧
    Kissat.litVal n (Lit.negOf 1) = .ok .true ∧ n.stats.maxVar = some 2 ∧
    Kissat.addClause n [Lit.pos 5] = (.err (.state .input .sat), n') ∧
    KissatReach n' [[Lit.pos 0], [Lit.negOf 1, Lit.pos 2]] false := by
  have h1 := (KissatReach.new (H := ToyLib)).reserve (v := 7) nofun nofun (eq_some_getD (d := Native.new) (by decide))
  have h2 := h1.add (c := [Lit.pos 0]) (eq_pair_of_fst (by decide))
  have h3 := h2.add (c := [Lit.negOf 1, Lit.pos 2]) (eq_pair_of_fst (by decide))
  have h4 := h3.solve (r := .sat) (eq_pair_of_fst (by decide))
  exact ⟨_, _, h4, by decide, by decide, by decide, eq_pair_of_fst (by decide),
    h4.addErr (c := [Lit.pos 5]) (e := .state .input .sat) (eq_pair_of_fst (by decide))⟩

example : ∃ n : Native ToyLib, KissatReach n [[Lit.pos 0], [Lit.negOf 0]] false ∧ n.state = .unsat [] := by
  have h2 := (KissatReach.new (H := ToyLib)).add (c := [Lit.pos 0]) (eq_pair_of_fst (by decide))
  have h3 := h2.add (c := [Lit.negOf 0]) (eq_pair_of_fst (by decide))
  have h4 := h3.solve (r := .unsat) (eq_pair_of_fst (by decide))
  exact ⟨_, h4, by decide⟩

/-- C72 is violated, for every library that behaves as Kissat does: after `Interrupted` the wrapper is in the state for input,
but both adding a clause and solving abort the process. -/
theorem C72_violated_interrupted {H : Type} [KissatLib H] [LawfulKissat H] {n n' : Native H} {F : ClauseSet}
    (h : KissatReach n F false) (e : Kissat.solve n = (.ok .interrupted, n')) :
    n'.state = .input ∧ (Kissat.solve n').1 = .panic ∧ ∀ c, (Kissat.addClause n' c).1 = .panic := by
  have hi := h.inv.1
  have hf : n'.state = .input ∧ LawfulKissat.searched n'.handle = true := by
    rcases Kissat.solve_cases n with ⟨hs, he⟩ | ⟨core, hs, he⟩ | ⟨hs, he⟩
    · rw [he] at e; injection e with e _; cases e
    · rw [he] at e; injection e with e _; cases e
    · rw [he] at e
      obtain ⟨x, h', e', hx, hs', _⟩ := LawfulKissat.solve n.handle (hi.fresh rfl hs)
      rw [e'] at e
      change Kissat.record n (x, h') = _ at e
      unfold Kissat.record at e
      rcases hx with rfl | rfl | rfl
      · rw [if_pos rfl] at e; injection e with _ e; subst e; exact ⟨rfl, hs'⟩
      · rw [if_neg (by simp), if_pos rfl] at e; injection e with e _; cases e
      · rw [if_neg (by simp), if_neg (by simp), if_pos rfl] at e; injection e with e _; cases e
  obtain ⟨h1, h2⟩ := hf
  refine ⟨h1, ?_, fun c => ?_⟩
  · unfold Kissat.solve
    rw [h1, LawfulKissat.solveAborts _ h2]
  · have : Kissat.passClause n'.handle c = none := by
      cases c with
      | nil => exact LawfulKissat.addAborts _ _ (.inl h2)
      | cons l c =>
        rcases Lit.cInt_cases l with ⟨z, ez⟩ | ⟨ez, _⟩
        · simp only [Kissat.passClause, ez, Option.bind_some, LawfulKissat.addAborts _ _ (.inl h2), Option.bind_none]
        · simp only [Kissat.passClause, ez, Option.bind_none]
    unfold Kissat.addClause
    rw [if_pos (.inl h1), this]

/-- There is such a history. -/
example : ∃ n n' : Native ToyLib, KissatReach n [[Lit.pos 0, Lit.pos 1]] false ∧
    Kissat.solve n = (.ok .interrupted, n') := by
  have h2 := (KissatReach.new (H := ToyLib)).add (c := [Lit.pos 0, Lit.pos 1]) (eq_pair_of_fst (by decide))
  exact ⟨_, _, h2, eq_pair_of_fst (by decide)⟩

/-- C72 is violated: `reserve` after `Sat` makes the wrapper forget the result. Values can no longer be read, and both adding a
clause and solving abort the process. -/
theorem C72_violated_reserve : ∃ n n' : Native ToyLib, KissatReach n [[Lit.pos 0]] false ∧ n.state = .sat ∧
    Kissat.reserve n 3 = some n' ∧ n'.state = .input ∧ Kissat.litVal n' (Lit.pos 0) = .err (.state .sat .input) ∧
    (Kissat.solve n').1 = .panic ∧ (Kissat.addClause n' [Lit.pos 0]).1 = .panic := by
  have h2 := (KissatReach.new (H := ToyLib)).add (c := [Lit.pos 0]) (eq_pair_of_fst (by decide))
  have h3 := h2.solve (r := .sat) (eq_pair_of_fst (by decide))
  exact ⟨_, _, h3, by decide, (eq_some_getD (d := Native.new) (by decide)), by decide, by decide, by decide, by decide⟩

/-- C72 is violated, for every library that behaves as Kissat does: a variable that is greater than the greatest one of Kissat
(although rustsat has such variables, and they fit a `c_int`) aborts the process, in a clause, in `reserve`, and when its value
is read. -/
theorem C72_violated_large_variable {H : Type} [KissatLib H] [LawfulKissat H] (n : Native H) {l : Lit}
    (hl : kissatMaxVar ≤ l.var) :
    ((n.state = .input ∨ n.state = .configuring) → ∀ c, l ∈ c → (Kissat.addClause n c).1 = .panic) ∧
    (n.state = .sat → Kissat.litVal n l = .panic) ∧ Kissat.reserve n l.var = none := by
  refine ⟨fun hs c hc => ?_, fun hs => ?_, ?_⟩
  · unfold Kissat.addClause
    rw [if_pos hs, passClause_aborts hl c n.handle hc]
  · unfold Kissat.litVal
    rw [if_pos hs]
    rcases Lit.cInt_cases l with ⟨z, ez⟩ | ⟨ez, _⟩
    · have hv : KissatLib.val n.handle z = none :=
        (LawfulKissat.val n.handle z).2 (by rw [Lit.cInt_natAbs ez]; omega)
      simp only [ez, hv]
    · simp only [ez]
  · unfold Kissat.reserve
    rcases Lit.cInt_cases (Lit.pos l.var) with ⟨z, ez⟩ | ⟨ez, _⟩
    · rw [ez, Option.bind_some, LawfulKissat.reserveAborts _ _ (by rw [Lit.cInt_natAbs ez, Lit.var_pos]; omega)]
      rfl
    · rw [ez]
      rfl

example : kissatMaxVar ≤ (Lit.negOf 1073741823).var ∧ (Lit.negOf 1073741823).InRange := by decide

/-! ### C73 -/

theorem cbState_next (ops : List CbOp) : (cbState ops).next = cbCount ops := by
  induction ops with
  | nil => rfl
  | cons op ops ih =>
    cases op with
    | attachLearner k =>
      simp only [cbState, CbOp.run, Callbacks.attachLearner, cbCount]
      by_cases hk : (k : Int) ≤ i32Max
      · rw [if_pos hk]; simp [ih]
      · rw [if_neg hk]; simp [ih]
    | _ => simp [cbState, CbOp.run, Callbacks.attachTerminator, Callbacks.detachTerminator, Callbacks.detachLearner,
        cbCount, ih]

theorem LengthsFit.tail {op : CbOp} {ops : List CbOp} (h : LengthsFit (op :: ops)) : LengthsFit ops :=
  fun k hk => h k (List.mem_cons_of_mem _ hk)

/-- C73: after every history of attaching and detaching callbacks, the library calls the ones attached last that were not
detached. (`_partial`: the lengths of learned clauses fit a `c_int`, see `C73_violated_length`.) -/
theorem C73_in_effect_partial (ops : List CbOp) (hl : LengthsFit ops) :
    (cbState ops).terminatePtr = terminatorAfter ops ∧ (cbState ops).learnPtr = learnerAfter ops := by
  induction ops with
  | nil => exact ⟨rfl, rfl⟩
  | cons op ops ih =>
    obtain ⟨h1, h2⟩ := ih hl.tail
    have hn := cbState_next ops
    cases op with
    | attachLearner k =>
      simp only [cbState, CbOp.run, Callbacks.attachLearner, if_pos (hl k List.mem_cons_self), terminatorAfter, learnerAfter]
      exact ⟨h1, by rw [hn]⟩
    | attachTerminator => exact ⟨congrArg some hn, h2⟩
    | detachTerminator => exact ⟨rfl, h2⟩
    | detachLearner => exact ⟨h1, rfl⟩

/-- C73: every callback that the library may call is still owned by the wrapper. (`_partial`: there is no call of
`detach_learner` while there is a terminator, see `C73_violated_detach`, and the lengths of learned clauses fit a `c_int`.) -/
theorem C73_owned_partial (ops : List CbOp) (hl : LengthsFit ops) (hd : NoMixedDetach ops) : (cbState ops).Sound := by
  induction ops with
  | nil => exact ⟨nofun, nofun⟩
  | cons op ops ih =>
    cases op with
    | attachLearner k =>
      obtain ⟨h1, h2⟩ := ih hl.tail hd
      simp only [cbState, CbOp.run, Callbacks.attachLearner, if_pos (hl k List.mem_cons_self)]
      exact ⟨h1, fun _ h => h⟩
    | attachTerminator =>
      obtain ⟨h1, h2⟩ := ih hl.tail hd
      exact ⟨fun _ h => h, h2⟩
    | detachTerminator =>
      obtain ⟨h1, h2⟩ := ih hl.tail hd
      exact ⟨nofun, h2⟩
    | detachLearner =>
      have ht := (C73_in_effect_partial ops hl.tail).1
      rw [hd.1] at ht
      refine ⟨fun i h => ?_, nofun⟩
      change (cbState ops).terminatePtr = some i at h
      rw [ht] at h
      cases h

/-- The hypotheses hold for a history in which both kinds of callbacks are replaced and detached. -/
example : LengthsFit [.attachLearner 5, .attachTerminator, .detachLearner, .detachTerminator, .attachLearner 3,
      .attachTerminator, .attachTerminator] ∧
    NoMixedDetach [.attachLearner 5, .attachTerminator, .detachLearner, .detachTerminator, .attachLearner 3,
      .attachTerminator, .attachTerminator] ∧
    terminatorAfter [.attachLearner 5, .attachTerminator, .detachLearner, .detachTerminator, .attachLearner 3,
      .attachTerminator, .attachTerminator] = some 3 := by
  refine ⟨fun k hk => ?_, by simp [NoMixedDetach, terminatorAfter], by decide⟩
  simp only [List.mem_cons, CbOp.attachLearner.injEq, reduceCtorEq, List.not_mem_nil, or_false, false_or] at hk
  rcases hk with rfl | rfl <;> decide

/-- C73 is violated: whatever happened before, `detach_learner` drops the terminator instead of the learner. If there is a
terminator, then the library keeps a pointer to it although it is gone. -/
theorem C73_violated_detach (ops : List CbOp) (hl : LengthsFit ops) (i : Nat) (h : terminatorAfter ops = some i) :
    (cbState (.detachLearner :: ops)).terminatePtr = some i ∧ (cbState (.detachLearner :: ops)).terminateCb = none ∧
    (cbState (.detachLearner :: ops)).learnerCb = (cbState ops).learnerCb ∧ ¬ (cbState (.detachLearner :: ops)).Sound := by
  have h1 : (cbState (.detachLearner :: ops)).terminatePtr = some i := ((C73_in_effect_partial ops hl).1.trans h)
  refine ⟨h1, rfl, rfl, fun hs => ?_⟩
  have := hs.1 i h1
  cases this

/-- C73 is violated: `attach_learner` with a length that does not fit a `c_int` panics after the previous learner was dropped;
the library keeps the pointer to it. -/
theorem C73_violated_length : ∃ s : Callbacks, s = cbState [.attachLearner 3] ∧ s.Sound ∧
    (s.attachLearner 2147483648).1 = false ∧ (s.attachLearner 2147483648).2.learnPtr = some 0 ∧
    (s.attachLearner 2147483648).2.learnerCb = some 1 ∧ ¬ (s.attachLearner 2147483648).2.Sound := by
  refine ⟨_, rfl, ⟨nofun, ?_⟩, by decide, by decide, by decide, fun hs => ?_⟩
  · exact (C73_owned_partial [.attachLearner 3] (fun k hk => by
      simp only [List.mem_cons, CbOp.attachLearner.injEq, List.not_mem_nil, or_false] at hk
      subst hk; decide) trivial).2
  · exact absurd (hs.2 0 (by decide)) (by decide)

end RustSat
