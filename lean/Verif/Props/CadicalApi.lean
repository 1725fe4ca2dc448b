import Verif.Lemmas.CadicalApiTold
import Verif.Lemmas.CadicalApiOom
/-
C99: the contracts of the CaDiCaL library.
-/
namespace RustSat.CadicalApi

/-- C99: no allowed call breaks a contract of the library, after any history of allowed calls. (`_partial`: the calls that
are not allowed, see `Allowed`, do break contracts: `C99_violated_*`.) -/
theorem C99_no_abort_partial {w : Wrapper} (h : Reach w) {op : Op} (ha : Allowed w op) : ∃ r w', w.call op = .ret r w' := by
  obtain ⟨r, w', e, _⟩ := h.sync.call ha
  exact ⟨r, w', e⟩

/-- C99: reading results is allowed in every state: values are returned exactly after `Sat`, cores exactly after `Unsat`,
and otherwise there is an error that names the state; and nothing is changed. -/
theorem C99_results {w : Wrapper} (h : Reach w) (x : Lit) :
    (w.state = .sat → ∃ v, v ≠ .dontCare ∧ w.litVal x = .ret (.ok v) w) ∧
    (w.state ≠ .sat → w.litVal x = .ret (.error (.other (.state .sat w.state.toExternal))) w) ∧
    (∀ c, w.state = .unsat c → w.core = .ret (.ok c) w ∧ ∃ b, w.tmpInCore = .ret (.ok b) w) ∧
    ((∀ c, w.state ≠ .unsat c) → w.core = .ret (.error (.other (.state .unsat w.state.toExternal))) w ∧
      w.tmpInCore = .ret (.error (.other (.state .unsat w.state.toExternal))) w) := by
  have hy := h.sync
  obtain ⟨l, s⟩ := w
  refine ⟨fun hs => ?_, fun hs => ?_, fun c hs => ?_, fun hs => ?_⟩
  · obtain rfl : s = .sat := hs
    have hl : l.state = .satisfied := hy.sat rfl
    refine ⟨if x.holds l.model then .true else .false, by split <;> nofun, ?_⟩
    unfold Wrapper.litVal Lib.val
    simp only [hl]
    rfl
  · cases s with
    | sat => exact absurd rfl hs
    | _ => rfl
  · obtain rfl : s = .unsat c := hs
    have hl : l.state = .unsatisfied := hy.unsat c rfl
    refine ⟨rfl, l.constrFailed, ?_⟩
    unfold Wrapper.tmpInCore Lib.constraintFailed
    simp only [hl]
    rfl
  · cases s with
    | unsat c => exact absurd rfl (hs c)
    | _ => exact ⟨rfl, rfl⟩

/-- C99: in the state `Sat` the values are those of a model of all clauses added so far, whatever was done since the query
without leaving this state: phases, limits, frozen variables, reading values, flipping literals. -/
theorem C99_values {w : Wrapper} {F : ClauseSet} {t : Option Clause} (h : Told w F t) (hs : w.state = .sat) :
    ∃ m, ClauseSet.sat m F ∧ ∀ x : Lit, w.litVal x = .ret (.ok (if x.holds m then .true else .false)) w := by
  have hi := h.inv
  refine ⟨w.lib.model, hi.model hs, fun x => ?_⟩
  have hl := hi.sync.sat hs
  obtain ⟨l, s⟩ := w
  obtain rfl : s = .sat := hs
  unfold Wrapper.litVal Lib.val
  simp only [show l.state = .satisfied from hl]
  rfl

/-- C99: if `flip_lit` returns true then the literal has the other value afterwards, in a model of the clauses added so
far. -/
theorem C99_flip {w w' : Wrapper} {F : ClauseSet} {t : Option Clause} (h : Told w F t) {x : Lit} {m : Option Asg}
    (hr : RightCall w (.flip x m)) (e : w.flip m = .ret (.ok true) w') :
    ∃ v v', w.litVal x = .ret (.ok v) w ∧ w'.litVal x = .ret (.ok v') w' ∧ v ≠ v' ∧
      ∃ m', ClauseSet.sat m' F ∧ ∀ y : Lit, w'.litVal y = .ret (.ok (if y.holds m' then .true else .false)) w' := by
  have hs : w.state = .sat := by
    unfold Wrapper.flip at e
    split at e
    next hs => exact hs
    · cases e
  have e' : w.call (.flip x m) = .ret (.ok (.bool true)) w' := by
    show (w.flip m).map _ = _
    rw [e]
    rfl
  have h' : Told w' F t := .step (.flip x m) h trivial trivial hr e'
  have hl : w.lib.state = .satisfied := h.inv.sync.sat hs
  obtain ⟨l, s⟩ := w
  obtain rfl : s = .sat := hs
  have hl : l.state = .satisfied := hl
  cases m with
  | none =>
    unfold Wrapper.flip Lib.flip at e
    simp only [hl] at e
    cases e
  | some m =>
    have ew : w' = ⟨{ l with model := m }, .sat⟩ := by
      unfold Wrapper.flip Lib.flip at e
      simp only [hl] at e
      injection e with _ e
      rw [← e]
      simp [hl]
    subst ew
    have hx : x.holds m = !x.holds l.model := hr.2
    refine ⟨if x.holds l.model then .true else .false, if x.holds m then .true else .false, ?_, ?_, ?_, C99_values h' rfl⟩
    · unfold Wrapper.litVal Lib.val
      simp only [hl]
      rfl
    · unfold Wrapper.litVal Lib.val
      simp only [hl]
      rfl
    · rw [hx]
      cases x.holds l.model <;> decide

/-- C99: what `solve` returns is right for the clauses added so far and the temporary clause. (`_partial`: memory has not
run out before, see `C99_violated_oom_*`; and not after `Unsat`, see C70.) -/
theorem C99_solve_partial {w w' : Wrapper} {F : ClauseSet} {t : Option Clause} {a : Answer} {r : SolverResult}
    (h : Told w F t) (hs : w.state = .configuring ∨ w.state = .input) (hr : RightCall w (.solve a))
    (e : w.solve a = .ret (.ok r) w') :
    (r = .sat → ∃ m, ClauseSet.sat m (query F t []) ∧
      ∀ x : Lit, w'.litVal x = .ret (.ok (if x.holds m then .true else .false)) w') ∧
    (r = .unsat → (¬ ∃ m, ClauseSet.sat m (query F t [])) ∧ w'.core = .ret (.ok []) w') := by
  have ha := a.oom_or.resolve_left (by
    rintro rfl
    unfold Wrapper.solve at e
    rcases hs with hs | hs <;>
      (rw [hs] at e; simp only [Lib.solve_ready h.inv.sync.ready .oom, Lib.search, Call.thenDo] at e; cases e))
  obtain ⟨r', w1, e', q⟩ := h.inv.fresh_solve (hs.imp id Or.inl) ha hr
  rw [e] at e'
  injection e' with e1 e2
  injection e1 with e1
  subst e1 e2
  refine ⟨fun hr => ?_, fun hr => ?_⟩
  · obtain ⟨h1, h2⟩ := q.sat hr
    refine ⟨_, h2, fun x => ?_⟩
    have hl := q.inv.sync.sat h1
    obtain ⟨l, s⟩ := w'
    obtain rfl : s = .sat := h1
    unfold Wrapper.litVal Lib.val
    simp only [show l.state = .satisfied from hl]
    rfl
  · obtain ⟨⟨core, h1, h2⟩, h3⟩ := q.unsat hr
    refine ⟨h3, ?_⟩
    have : core = [] := by
      cases core with
      | nil => rfl
      | cons x xs => exact absurd (h2 x List.mem_cons_self) nofun
    subst this
    obtain ⟨l, s⟩ := w'
    obtain rfl : s = .unsat [] := h1
    rfl

/-- C99: what `solve_assumps` returns is right for the clauses added so far, the temporary clause and the assumptions, in
every state. (`_partial`: memory has not run out before.) -/
theorem C99_assumps_partial {w w' : Wrapper} {F : ClauseSet} {t : Option Clause} {a : Answer} {A : List Lit} {r : SolverResult}
    (h : Told w F t) (hr : RightCall w (.solveAssumps none A a)) (e : w.solveAssumps none A a = .ret (.ok r) w') :
    (r = .sat → ∃ m, ClauseSet.sat m (query F t A) ∧
      ∀ x : Lit, w'.litVal x = .ret (.ok (if x.holds m then .true else .false)) w') ∧
    (r = .unsat → (¬ ∃ m, ClauseSet.sat m (query F t A)) ∧ ∃ core, w'.core = .ret (.ok core) w' ∧ ∀ x ∈ core, x.neg ∈ A) := by
  have ha := a.oom_or.resolve_left (by
    rintro rfl
    obtain ⟨k', l, e1, _, hl⟩ := Knows.pass_assume h.inv.sync h.inv.knows A
    unfold Wrapper.solveAssumps at e
    rw [e1] at e
    simp only [Call.thenDo, Lib.solve_ready hl, Lib.search] at e
    cases e)
  obtain ⟨r', w1, e', q⟩ := h.inv.solveAssumps A ha hr
  rw [e] at e'
  injection e' with e1 e2
  injection e1 with e1
  subst e1 e2
  refine ⟨fun hr => ?_, fun hr => ?_⟩
  · obtain ⟨h1, h2⟩ := q.sat hr
    refine ⟨_, h2, fun x => ?_⟩
    have hl := q.inv.sync.sat h1
    obtain ⟨l, s⟩ := w'
    obtain rfl : s = .sat := h1
    unfold Wrapper.litVal Lib.val
    simp only [show l.state = .satisfied from hl]
    rfl
  · obtain ⟨⟨core, h1, h2⟩, h3⟩ := q.unsat hr
    refine ⟨h3, core, ?_, h2⟩
    obtain ⟨l, s⟩ := w'
    obtain rfl : s = .unsat core := h1
    rfl

/-- C99: limits that do not fit a `c_int` are refused and change nothing; all others are passed on, in every state. -/
theorem C99_limit {w : Wrapper} (h : Reach w) (n : Option Nat) :
    w.limit n = if (∀ k, n = some k → (k : Int) ≤ i32Max) then .ret (.ok ()) w else .ret (.error (.other .convert)) w := by
  have hv := w.lib.valid_iff.2 h.sync.ready.2
  have hq : w.plain Lib.quiet = .ret (.ok ()) w := by
    unfold Wrapper.plain Lib.quiet
    rw [hv]
    rfl
  cases n with
  | none =>
    rw [if_pos nofun]
    exact hq
  | some k =>
    unfold Wrapper.limit
    by_cases hk : (k : Int) ≤ i32Max
    · rw [if_pos (by rintro _ ⟨rfl⟩; exact hk)]
      simp only [if_pos hk]
      exact hq
    · rw [if_neg (fun h => hk (h k rfl))]
      simp only [if_neg hk]

/-- C99: an allowed call that runs out of memory adds no clause and no part of one. (`_partial`: calls that run out of
memory within a clause do, see `C99_violated_oom_clause`.) -/
theorem C99_out_of_memory_partial {w w' : Wrapper} (h : Reach w) {op : Op} (ha : Allowed w op)
    (e : w.call op = .ret (.error .outOfMemory) w') :
    w'.lib.clauses = w.lib.clauses ∧ w'.lib.openClause = w.lib.openClause := by
  have hy := h.sync
  cases op with
  | addClause k c =>
    rcases ha with rfl | rfl
    · obtain ⟨l', e', _⟩ := Wrapper.addClause_ok hy c
      exact absurd e (Out.map_ok_ne e')
    · exact Out.map_oom (Wrapper.addClause_zero hy c) e ▸ ⟨(Same.toSteady _).clauses, (Same.toSteady _).opn⟩
  | addTmp k c =>
    rcases ha with rfl | rfl
    · obtain ⟨l', e', _⟩ := Wrapper.addTmp_ok hy c
      exact absurd e (Out.map_ok_ne e')
    · exact Out.map_oom (Wrapper.addTmp_zero hy c) e ▸ ⟨(Same.toSteady _).clauses, (Same.toSteady _).opn⟩
  | reserve mem v => exact (hy.reserve_kept mem v e)
  | solve a =>
    obtain ⟨r, w1, e', _⟩ := hy.solve ha
    exact absurd e (Out.map_ok_ne e')
  | solveAssumps k A a => exact hy.solveAssumps_oom ha.1 e
  | simplify n a => exact absurd e (hy.simplify_ne n ha)
  | simplifyAssumps k A n a => exact hy.simplifyAssumps_oom ha.1 e
  | propagate k A a => exact hy.propagate_oom e
  | declareMore n => exact absurd e (hy.declare_ne n)
  | _ =>
    obtain ⟨r, w1, e', _, hk⟩ := hy.calm (by exact trivial) ha
    rw [e] at e'
    injection e' with _ e'
    subst e'
    exact ⟨hk.clauses, hk.opn⟩

/-! ### Violations: calls that the wrapper accepts and that break a contract of the library -/

/-- C99 is violated: setting an option after a clause was added; the wrapper does not check its state. -/
theorem C99_violated_set_option (c : Clause) : run {} [.addClause none c, .setOption false] = none := by
  obtain ⟨l', e, hl, _⟩ := Wrapper.addClause_ok (w := {}) Reach.new.sync c
  have e' : Wrapper.call {} (.addClause none c) = .ret (.ok .unit) ⟨l', .input⟩ := by
    show (Wrapper.addClause {} none c).map _ = _
    rw [e]
    rfl
  unfold run
  rw [e']
  simp only [run, Wrapper.call, Wrapper.plain, Lib.set, Lib.valid, hl]
  rfl

/-- C99 is violated: tracing a proof after a clause was added. -/
theorem C99_violated_trace_proof (c : Clause) : run {} [.addClause none c, .traceProof] = none := by
  obtain ⟨l', e, hl, _⟩ := Wrapper.addClause_ok (w := {}) Reach.new.sync c
  have e' : Wrapper.call {} (.addClause none c) = .ret (.ok .unit) ⟨l', .input⟩ := by
    show (Wrapper.addClause {} none c).map _ = _
    rw [e]
    rfl
  unfold run
  rw [e']
  simp only [run, Wrapper.call, Wrapper.plain, Lib.configure, hl]
  rfl

/-- C99 is violated: declaring variables in the state `Sat` or `Configuring` leaves the state of the wrapper as it was,
but not that of the library: reading a value and setting the configuration break the contract although the wrapper is in
the state that they require. -/
theorem C99_violated_declare :
    (∃ m, RightRun {} [.addClause none [.pos 0], .solve (.sat m)] ∧
      (run {} [.addClause none [.pos 0], .solve (.sat m), .declareMore 1]).map Prod.fst =
        some [.ok .unit, .ok (.result .sat), .ok (.num 2)] ∧
      run {} [.addClause none [.pos 0], .solve (.sat m), .declareMore 1, .litVal (.pos 0)] = none) ∧
    run {} [.declareMore 1, .setConfiguration] = none := by
  refine ⟨⟨fun _ => true, ⟨trivial, ?_⟩, rfl, rfl⟩, rfl⟩
  rintro r w' ⟨rfl, rfl⟩
  refine ⟨?_, fun _ _ _ => trivial⟩
  show ClauseSet.sat (fun _ => true) [[.pos 0]]
  simp [ClauseSet.sat, Clause.sat, Lit.holds, Lit.pos, Lit.isNeg, Lit.var]

/-- C99 is violated: melting a variable that is not frozen. -/
theorem C99_violated_melt (v : Nat) : run {} [.melt v] = none := by
  rfl

/-- C99 is violated: if memory runs out in `solve` then the library stays in the state of a search, and nothing can be
added or solved any more. -/
theorem C99_violated_oom_solve (c : Clause) (a : Answer) :
    run {} [.solve .oom, .addClause none c] = none ∧ run {} [.solve .oom, .solve a] = none ∧
    (run {} [.solve .oom]).map Prod.fst = some [.error .outOfMemory] := by
  refine ⟨?_, rfl, rfl⟩
  cases c <;> rfl

/-- C99 is violated: if memory runs out within a clause then the literals passed so far become part of the next clause: a
model that the library finds need not satisfy the clause added next. -/
theorem C99_violated_oom_clause :
    ∃ m, RightRun {} [.addClause (some 1) [.pos 0, .pos 1], .addClause none [.pos 2], .solve (.sat m)] ∧
      (run {} [.addClause (some 1) [.pos 0, .pos 1], .addClause none [.pos 2], .solve (.sat m), .litVal (.pos 2)]).map Prod.fst =
        some [.error .outOfMemory, .ok .unit, .ok (.result .sat), .ok (.val .false)] := by
  refine ⟨fun v => v == 0, ⟨trivial, ?_⟩, rfl⟩
  rintro r w' ⟨rfl, rfl⟩
  refine ⟨trivial, ?_⟩
  rintro r w' ⟨rfl, rfl⟩
  refine ⟨?_, fun _ _ _ => trivial⟩
  show ClauseSet.sat (fun v => v == 0) [[.pos 0, .pos 2]]
  simp [ClauseSet.sat, Clause.sat, Lit.holds, Lit.pos, Lit.isNeg, Lit.var]

/-- C99 is violated: if memory runs out while assumptions are passed then those passed so far are in effect for the next
query: `solve` says `Unsat`, with an empty core, although the clauses are satisfiable. -/
theorem C99_violated_oom_assumps :
    RightRun {} [.addClause none [.pos 0], .solveAssumps (some 1) [.negOf 0, .pos 1] .unknown, .solve (.unsat [.negOf 0] false)] ∧
    (run {} [.addClause none [.pos 0], .solveAssumps (some 1) [.negOf 0, .pos 1] .unknown, .solve (.unsat [.negOf 0] false),
      .core]).map Prod.fst =
      some [.ok .unit, .error .outOfMemory, .ok (.result .unsat), .ok (.lits [])] ∧
    ∃ m, ClauseSet.sat m [[.pos 0]] := by
  refine ⟨⟨trivial, ?_⟩, rfl, fun _ => true, by simp [ClauseSet.sat, Clause.sat, Lit.holds, Lit.pos, Lit.isNeg, Lit.var]⟩
  rintro r w' ⟨rfl, rfl⟩
  refine ⟨trivial, ?_⟩
  rintro r w' ⟨rfl, rfl⟩
  refine ⟨?_, fun _ _ _ => trivial⟩
  rintro ⟨m, hm⟩
  have h0 := hm [.pos 0] (by decide)
  have h1 := hm [.negOf 0] (by decide)
  revert h0 h1
  simp +contextual [Clause.sat, Lit.holds, Lit.pos, Lit.negOf, Lit.isNeg, Lit.var]

/-- C99 is violated: if memory runs out in `solve_assumps` after `Sat` then the wrapper stays in the state `Sat`, but
reading a value breaks the contract. -/
theorem C99_violated_oom_value :
    (run {} [.addClause none [.pos 0], .solve (.sat fun _ => true), .solveAssumps (some 0) [.pos 0] .unknown]).map Prod.fst =
      some [.ok .unit, .ok (.result .sat), .error .outOfMemory] ∧
    run {} [.addClause none [.pos 0], .solve (.sat fun _ => true), .solveAssumps (some 0) [.pos 0] .unknown, .litVal (.pos 0)]
      = none :=
  ⟨rfl, rfl⟩

/-! ### Examples -/

/-- A history with a model, a flipped literal, assumptions and a core. -/
def exampleOps : List Op :=
  [.setOption false, .addClause none [.pos 0, .pos 1], .freeze 0, .solve (.sat fun _ => true), .litVal (.pos 1),
    .flip (.pos 1) (some fun v => v == 0), .litVal (.pos 1), .melt 0,
    .solveAssumps none [.negOf 0, .negOf 1] (.unsat [.negOf 0, .negOf 1] false), .core, .litVal (.pos 0),
    .addTmp none [.negOf 0], .solve (.sat fun v => v == 1), .litVal (.pos 0), .solve .unknown]

example : (run {} exampleOps).map Prod.fst =
    some [.ok .unit, .ok .unit, .ok .unit, .ok (.result .sat), .ok (.val .true), .ok (.bool true), .ok (.val .false), .ok .unit,
      .ok (.result .unsat), .ok (.lits [.pos 0, .pos 1]), .error (.other (.state .sat .unsat)), .ok .unit, .ok (.result .sat),
      .ok (.val .false), .ok (.result .sat)] := by rfl

/-- The hypotheses of the theorems about values are met: a clause, a model, and a literal of it flipped. -/
example : ∃ w w', Told w [[.pos 0, .pos 1]] none ∧ w.state = .sat ∧
    RightCall w (.flip (.pos 1) (some fun v => v == 0)) ∧ w.flip (some fun v => v == 0) = .ret (.ok true) w' := by
  have h1 := Told.step (.addClause none [.pos 0, .pos 1]) .new (.inl rfl) rfl trivial rfl
  have h2 := Told.step (.solve (.sat fun _ => true)) h1 nofun nofun (by
    show ClauseSet.sat (fun _ => true) [[.pos 0, .pos 1]]
    intro c hc
    rw [List.mem_singleton.1 hc]
    exact ⟨.pos 0, List.mem_cons_self, rfl⟩) rfl
  refine ⟨_, _, h2, rfl, ⟨?_, rfl⟩, rfl⟩
  show ClauseSet.sat (fun v => v == 0) [[.pos 0, .pos 1]]
  simp [ClauseSet.sat, Clause.sat, Lit.holds, Lit.pos, Lit.isNeg, Lit.var]

/-- The hypotheses of the theorem about assumptions are met, by a query that is unsatisfiable because of the temporary
clause and an assumption. -/
example : ∃ w w', Told w [[.pos 0, .pos 1]] (some [.negOf 0]) ∧
    RightCall w (.solveAssumps none [.negOf 1] (.unsat [.negOf 1] true)) ∧
    w.solveAssumps none [.negOf 1] (.unsat [.negOf 1] true) = .ret (.ok .unsat) w' := by
  have h1 := Told.step (.addClause none [.pos 0, .pos 1]) .new (.inl rfl) rfl trivial rfl
  have h2 := Told.step (.addTmp none [.negOf 0]) h1 (.inl rfl) rfl trivial rfl
  refine ⟨_, _, h2, ?_, rfl⟩
  rintro ⟨m, hm⟩
  have h0 := hm [.pos 0, .pos 1] (by decide)
  have h1 := hm [.negOf 0] (by decide)
  have h2 := hm [.negOf 1] (by decide)
  revert h0 h1 h2
  simp +contextual [Clause.sat, Lit.holds, Lit.pos, Lit.negOf, Lit.isNeg, Lit.var]
  cases m 0 <;> simp

/-- An allowed call runs out of memory. -/
example : ∃ w', Wrapper.call {} (.addClause (some 0) [.pos 0]) = .ret (.error .outOfMemory) w' ∧
    Allowed {} (.addClause (some 0) [.pos 0]) := ⟨_, rfl, .inr rfl⟩

end RustSat.CadicalApi
