import Verif.Lemmas.Bindings
/-
C69: the wrapper of IPASIR libraries, over all histories.
C70: temporary clauses, simplification and reserving variables in the wrapper of CaDiCaL.

The theorems hold for every library that satisfies the specification in Spec/Bindings.lean. C70 is partial: `simplify`,
`simplify_assumps` and `solve` answer from a state that does not fit the question (`C70_violated_*`).
-/
namespace RustSat

section
variable {H : Type} [Ipasir H] [LawfulIpasir H]

theorem IpasirReach.inv {n : Native H} {F : ClauseSet} (h : IpasirReach n F) : NInv n F none none := by
  induction h with
  | new => exact NInv.new
  | add _ e ih => exact ih.add e
  | @solve n F r n' _ e ih =>
    rcases n.solve_cases with ⟨_, he⟩ | ⟨_, he⟩ | ⟨_, _, he⟩
    · rw [he] at e; injection e with _ e; exact e ▸ ih
    · rw [he] at e; injection e with _ e; exact e ▸ ih
    · rw [he] at e; exact (ih.solve_query e).inv
  | assumps _ e ih => exact (ih.assumps e).inv

/-- C69: what `solve` returns is right for the clauses added so far: after `Sat` the values of literals are those of a
model, after `Unsat` there is no model, and the core is empty. -/
theorem C69_solve {n n' : Native H} {F : ClauseSet} {r : SolverResult} (h : IpasirReach n F)
    (e : n.solve = (.ok r, n')) :
    (r = .sat → GivesModel (fun l => (n'.litVal l).toOption) F) ∧
    (r = .unsat → Unsatisfiable F ∧ n'.core = .ok []) := by
  have hi := h.inv
  rcases n.solve_cases with ⟨hs, he⟩ | ⟨hs, he⟩ | ⟨_, _, he⟩
  · rw [he] at e
    injection e with e1 e2
    injection e1 with e1
    subst e1 e2
    exact ⟨fun _ => Native.litVal_gives hs (hi.sat hs).2, nofun⟩
  · rw [he] at e
    injection e with e1 e2
    injection e1 with e1
    subst e1 e2
    refine ⟨nofun, fun _ => ⟨.of_core fun m hm => (hi.unsat [] hs).2 m (by simpa using hm), ?_⟩⟩
    unfold Native.core
    rw [hs]
  · rw [he] at e
    have q := hi.solve_query e
    refine ⟨fun hr => ?_, fun hr => ?_⟩
    · obtain ⟨hs, hm⟩ := q.sat hr
      exact Native.litVal_gives hs (hm.mono fun c hc => by simp [hc])
    · obtain ⟨core, hs, hA, hm⟩ := q.unsat hr
      have hc : core = [] := by
        cases core with
        | nil => rfl
        | cons l c => have := hA l List.mem_cons_self; cases this
      subst hc
      refine ⟨.of_core fun m hsat => hm m ?_, ?_⟩
      · split <;> simpa using hsat
      · unfold Native.core
        rw [hs]

/-- C69: what `solve_assumps` returns is right for the clauses added so far and the assumptions of this call: after `Sat`
the values of literals are those of a model; after `Unsat` the core consists of negated assumptions and is a consequence
of the clauses, so that the clauses and the assumptions have no common model. -/
theorem C69_assumps {n n' : Native H} {F : ClauseSet} {A : List Lit} {r : SolverResult} (h : IpasirReach n F)
    (e : n.solveAssumps A = (.ok r, n')) :
    (r = .sat → GivesModel (fun l => (n'.litVal l).toOption) (F ++ units A)) ∧
    (r = .unsat → Unsatisfiable (F ++ units A) ∧ ∃ core, n'.core = .ok core ∧ (∀ l ∈ core, l.neg ∈ A) ∧
      ∀ m, ClauseSet.sat m F → Clause.sat m core) := by
  have q := h.inv.assumps e
  refine ⟨fun hr => ?_, fun hr => ?_⟩
  · obtain ⟨hs, hm⟩ := q.sat hr
    exact Native.litVal_gives hs (hm.mono fun c hc => by simpa using hc)
  · obtain ⟨core, hs, hA, hm⟩ := q.unsat hr
    have hm : ∀ m, ClauseSet.sat m F → Clause.sat m core := fun m hsat => hm m (by split <;> simpa using hsat)
    refine ⟨?_, core, by unfold Native.core; rw [hs], hA, hm⟩
    rintro ⟨m, hsat⟩
    obtain ⟨l, hl, hlm⟩ := hm m fun c hc => hsat c (List.mem_append_left _ hc)
    obtain ⟨l', hl', h'⟩ := hsat [l.neg] (List.mem_append_right _ (List.mem_map_of_mem (hA l hl)))
    rw [List.mem_singleton.1 hl', Lit.holds_neg, hlm] at h'
    cases h'

/-- C69: the errors name the state that is needed and the state of the solver. -/
theorem C69_errors (n : Native H) (l : Lit) :
    (n.state = .configuring → n.litVal l = .err (.state .sat .configuring) ∧ n.core = .err (.state .unsat .configuring)) ∧
    (n.state = .input → n.litVal l = .err (.state .sat .input) ∧ n.core = .err (.state .unsat .input)) ∧
    (n.state = .sat → n.core = .err (.state .unsat .sat)) ∧
    (∀ c, n.state = .unsat c → n.litVal l = .err (.state .sat .unsat)) := by
  refine ⟨fun h => ?_, fun h => ?_, fun h => ?_, fun c h => ?_⟩
  · unfold Native.litVal Native.core; rw [h]; exact ⟨rfl, rfl⟩
  · unfold Native.litVal Native.core; rw [h]; exact ⟨rfl, rfl⟩
  · unfold Native.core; rw [h]; rfl
  · unfold Native.litVal; rw [h]; rfl

/-- C69: at any time, values and cores can be read exactly in the right state, and they are right then: values after a
query that returned `Sat`, a core after a query that returned `Unsat`, and neither after a clause was added or a query was
interrupted. -/
theorem C69_states {n n' : Native H} {F : ClauseSet} (h : IpasirReach n F) :
    (∀ c, n.addClause c = some n' → n'.state = .input) ∧
    (∀ r, (n.solve = (.ok r, n') ∨ ∃ A, n.solveAssumps A = (.ok r, n')) →
      StateAfter r n'.state) ∧
    (n.state ≠ .sat → ∀ l, n.litVal l = .err (.state .sat n.state.toExternal)) ∧
    ((∀ core, n.state ≠ .unsat core) → n.core = .err (.state .unsat n.state.toExternal)) ∧
    (n.state = .sat → GivesModel (fun l => (n.litVal l).toOption) F) ∧
    (∀ core, n.state = .unsat core → n.core = .ok core ∧ ∀ m, ClauseSet.sat m F → Clause.sat m core) := by
  have hi := h.inv
  refine ⟨fun c e => ?_, fun r e => ?_, fun hs l => ?_, fun hs => ?_, fun hs => ?_, fun core hs => ?_⟩
  · unfold Native.addClause at e
    cases hp : passLits Ipasir.add n.handle c with
    | none => rw [hp] at e; cases e
    | some h' => rw [hp] at e; injection e with e; subst e; rfl
  · have key : ∀ {t A}, QueryOk F t A r n' → StateAfter r n'.state := by
      intro t A q
      cases r with
      | sat => exact (q.sat rfl).1
      | unsat => obtain ⟨c, hc, _⟩ := q.unsat rfl; exact ⟨c, hc⟩
      | interrupted => exact q.interrupted rfl
    rcases e with e | ⟨A, e⟩
    · rcases n.solve_cases with ⟨hs, he⟩ | ⟨hs, he⟩ | ⟨_, _, he⟩
      · rw [he] at e
        injection e with e1 e2
        injection e1 with e1
        subst e1 e2
        exact hs
      · rw [he] at e
        injection e with e1 e2
        injection e1 with e1
        subst e1 e2
        exact ⟨_, hs⟩
      · rw [he] at e
        exact key (hi.solve_query e)
    · exact key (hi.assumps e)
  · unfold Native.litVal
    rw [if_neg hs]
  · unfold Native.core
    cases hs' : n.state with
    | unsat c => exact absurd hs' (hs c)
    | _ => rfl
  · exact Native.litVal_gives hs (hi.sat hs).2
  · refine ⟨by unfold Native.core; rw [hs], fun m hm => (hi.unsat core hs).2 m (by simpa using hm)⟩

/-- C69: no operation fails if the literals fit a `c_int`, and every such literal has a value after `Sat`; the value of the
negated literal is the negated value. -/
theorem C69_no_failure {n : Native H} {F : ClauseSet} (h : IpasirReach n F) :
    (∀ c : Clause, (∀ l ∈ c, l.InRange) → ∃ n', n.addClause c = some n') ∧
    (∃ r n', n.solve = (.ok r, n')) ∧
    (∀ A : List Lit, (∀ l ∈ A, l.InRange) → ∃ r n', n.solveAssumps A = (.ok r, n')) ∧
    (¬ LawfulIpasir.minusOne H → n.state = .sat → ∀ l : Lit, l.InRange →
      ∃ t, n.litVal l = .ok t ∧ n.litVal l.neg = .ok t.not) := by
  have hi := h.inv
  refine ⟨fun c hc => ?_, ?_, fun A hA => ?_, fun hno hs l hl => ?_⟩
  · obtain ⟨h', e⟩ := passLits_total Ipasir.add c n.handle hc
    exact ⟨_, by unfold Native.addClause; rw [e]; rfl⟩
  · rcases n.solve_cases with ⟨_, he⟩ | ⟨_, he⟩ | ⟨_, _, he⟩
    · exact ⟨_, _, he⟩
    · exact ⟨_, _, he⟩
    · rw [he]
      exact query_total n n.handle fun _ => ⟨_, rfl⟩
  · obtain ⟨h', e⟩ := passLits_total Ipasir.assume A n.handle hA
    unfold Native.solveAssumps
    rw [e]
    have hv := view_assumeLits e
    rw [hi.view] at hv
    exact query_total n h' fun h20 => ⟨_, coreAssumps_eq h20 A (by rw [hv]; simp) hA⟩
  · obtain ⟨p, _, h2, _⟩ := (hi.sat hs).2
    have hl' : l.neg.InRange := by unfold Lit.InRange; rw [Lit.var_neg]; exact hl
    obtain ⟨z, e⟩ := Lit.cInt_of_inRange hl
    obtain ⟨z', e'⟩ := Lit.cInt_of_inRange hl'
    have hz := (Lit.cInt_some e).2
    have hz' := (Lit.cInt_some e').2
    have h2l := h2 l z e
    have h2n := h2 l.neg z' e'
    rw [Lit.var_neg] at hz' h2n
    rw [Lit.isNeg_neg] at hz' h2n
    have hv : ∀ (l : Lit) z, l.cInt = some z → n.litVal l = if Ipasir.val n.handle z = 0 then .ok .dontCare
        else if Ipasir.val n.handle z = z then .ok .true
        else if Ipasir.val n.handle z = -z then .ok .false else .err .api := by
      intro l z e
      simp only [Native.litVal, if_pos hs, e]
    rw [hv l z e, hv l.neg z' e']
    cases hp : p l.var with
    | none =>
      have a := h2l.2 hp
      have b := h2n.2 hp
      rw [if_pos (by simpa [hno] using a), if_pos (by simpa [hno] using b)]
      exact ⟨_, rfl, rfl⟩
    | some x =>
      have a := h2l.1 x hp
      have b := h2n.1 x hp
      rw [a, b]
      have hz0 : z ≠ 0 := by split at hz <;> omega
      have hz0' : z' ≠ 0 := by split at hz' <;> omega
      have hzz : -z ≠ z := by omega
      have hzz' : -z' ≠ z' := by omega
      have hn0 : -z ≠ 0 := by omega
      have hn0' : -z' ≠ 0 := by omega
      cases hn : l.isNeg <;> cases x <;> simp [hz0, hz0', hzz, hzz', hn0, hn0', TernaryVal.not]

/-- The highest variable of some clauses, if there is one. -/
def HighestVar (F : ClauseSet) (mv : Option Nat) : Prop :=
  (mv = none → ∀ c ∈ F, c = []) ∧
  ∀ v, mv = some v → (∃ c ∈ F, ∃ l ∈ c, l.var = v) ∧ ∀ c ∈ F, ∀ l ∈ c, l.var ≤ v

theorem HighestVar.add {F : ClauseSet} (c : Clause) : ∀ {mv : Option Nat} (d : Clause), HighestVar (F ++ [d]) mv →
    HighestVar (F ++ [d ++ c]) (c.foldl maxVarStep mv) := by
  induction c with
  | nil => intro mv d h; simpa using h
  | cons l c ih =>
    intro mv d h
    have h' : HighestVar (F ++ [d ++ [l]]) (maxVarStep mv l) := by
      unfold maxVarStep
      cases mv with
      | none =>
        have h1 := h.1 rfl
        refine ⟨nofun, fun v hv => ?_⟩
        injection hv with hv
        subst hv
        refine ⟨⟨d ++ [l], by simp, l, by simp, rfl⟩, fun c hc l' hl' => ?_⟩
        rcases List.mem_append.1 hc with hc | hc
        · rw [h1 c (List.mem_append_left _ hc)] at hl'
          cases hl'
        · rw [List.mem_singleton.1 hc, h1 d (by simp)] at hl'
          simp at hl'
          rw [hl']
          omega
      | some w =>
        obtain ⟨⟨c0, hc0, l0, hl0, hw⟩, hle⟩ := h.2 w rfl
        have hmem : ∃ c ∈ F ++ [d ++ [l]], ∃ l ∈ c, l.var = w := by
          rcases List.mem_append.1 hc0 with hc | hc
          · exact ⟨c0, List.mem_append_left _ hc, l0, hl0, hw⟩
          · exact ⟨d ++ [l], by simp, l0, List.mem_append_left _ (List.mem_singleton.1 hc ▸ hl0), hw⟩
        have hle' : ∀ c ∈ F ++ [d ++ [l]], ∀ l' ∈ c, l'.var ≤ w ∨ l' = l := by
          intro c hc l' hl'
          rcases List.mem_append.1 hc with hc | hc
          · exact .inl (hle c (List.mem_append_left _ hc) l' hl')
          · rw [List.mem_singleton.1 hc] at hl'
            rcases List.mem_append.1 hl' with hl' | hl'
            · exact .inl (hle d (by simp) l' hl')
            · exact .inr (List.mem_singleton.1 hl')
        by_cases hlt : w < l.var
        · show HighestVar _ (if w < l.var then _ else _)
          rw [if_pos hlt]
          refine ⟨nofun, fun v hv => ?_⟩
          injection hv with hv
          subst hv
          refine ⟨⟨d ++ [l], by simp, l, by simp, rfl⟩, fun c hc l' hl' => ?_⟩
          rcases hle' c hc l' hl' with h | rfl <;> omega
        · show HighestVar _ (if w < l.var then _ else _)
          rw [if_neg hlt]
          refine ⟨nofun, fun v hv => ?_⟩
          injection hv with hv
          subst hv
          refine ⟨hmem, fun c hc l' hl' => ?_⟩
          rcases hle' c hc l' hl' with h | rfl <;> omega
    have := ih (d ++ [l]) h'
    simpa using this

theorem HighestVar.nil {F : ClauseSet} {mv : Option Nat} (h : HighestVar F mv) : HighestVar (F ++ [[]]) mv := by
  refine ⟨fun e c hc => ?_, fun v e => ?_⟩
  · rcases List.mem_append.1 hc with hc | hc
    · exact h.1 e c hc
    · exact List.mem_singleton.1 hc
  · obtain ⟨⟨c, hc, l, hl, hv⟩, hle⟩ := h.2 v e
    refine ⟨⟨c, List.mem_append_left _ hc, l, hl, hv⟩, fun c hc l hl => ?_⟩
    rcases List.mem_append.1 hc with hc | hc
    · exact hle c hc l hl
    · rw [List.mem_singleton.1 hc] at hl; cases hl

omit [Ipasir H] [LawfulIpasir H] in
theorem Native.record_stats {n n' : Native H} {core : H → Res BindErr (List Lit)} {p : Int × H} {r : SolverResult}
    (e : n.record core p = (.ok r, n')) : n'.stats.nClauses = n.stats.nClauses ∧ n'.stats.maxVar = n.stats.maxVar ∧
      n'.stats.nSat = n.stats.nSat + (if r = .sat then 1 else 0) ∧
      n'.stats.nUnsat = n.stats.nUnsat + (if r = .unsat then 1 else 0) ∧
      n'.stats.nTerminated = n.stats.nTerminated + (if r = .interrupted then 1 else 0) := by
  unfold Native.record at e
  by_cases h0 : p.1 = 0
  · rw [if_pos h0] at e
    injection e with e1 e2
    injection e1 with e1
    subst e1 e2
    simp
  rw [if_neg h0] at e
  by_cases h10 : p.1 = 10
  · rw [if_pos h10] at e
    injection e with e1 e2
    injection e1 with e1
    subst e1 e2
    simp
  rw [if_neg h10] at e
  by_cases h20 : p.1 = 20
  · rw [if_pos h20] at e
    cases hc : core p.2 with
    | ok c =>
      rw [hc] at e
      injection e with e1 e2
      injection e1 with e1
      subst e1 e2
      simp
    | err _ => rw [hc] at e; injection e with e1 _; cases e1
    | panic => rw [hc] at e; injection e with e1 _; cases e1
  · rw [if_neg h20] at e
    injection e with e1 _
    cases e1

omit [LawfulIpasir H] in
/-- C69: the statistics: the number of clauses and the highest variable are those of the clauses added so far; a query that
asks the library adds one to the number of queries with its result. -/
theorem C69_statistics {n : Native H} {F : ClauseSet} (h : IpasirReach n F) :
    n.stats.nClauses = F.length ∧ HighestVar F n.stats.maxVar ∧
    ∀ A r n', n.solveAssumps A = (.ok r, n') →
      n'.stats.nSat = n.stats.nSat + (if r = .sat then 1 else 0) ∧
      n'.stats.nUnsat = n.stats.nUnsat + (if r = .unsat then 1 else 0) ∧
      n'.stats.nTerminated = n.stats.nTerminated + (if r = .interrupted then 1 else 0) := by
  have hA : ∀ {n n' : Native H} {A r}, n.solveAssumps A = (.ok r, n') → ∃ core p, n.record core p = (.ok r, n') := by
    intro n n' A r e
    unfold Native.solveAssumps at e
    cases hp : passLits Ipasir.assume n.handle A with
    | none => rw [hp] at e; injection e with e _; cases e
    | some h' => rw [hp] at e; exact ⟨_, _, e⟩
  have key : n.stats.nClauses = F.length ∧ HighestVar F n.stats.maxVar := by
    induction h with
    | new => exact ⟨rfl, fun _ => nofun, nofun⟩
    | @add n F c n' _ e ih =>
      unfold Native.addClause at e
      cases hp : passLits Ipasir.add n.handle c with
      | none => rw [hp] at e; cases e
      | some h' =>
        rw [hp] at e
        injection e with e
        subst e
        refine ⟨by simp [ih.1], ?_⟩
        exact HighestVar.add c [] ih.2.nil
    | @solve n F r n' _ e ih =>
      rcases n.solve_cases with ⟨_, he⟩ | ⟨_, he⟩ | ⟨_, _, he⟩
      · rw [he] at e; injection e with _ e; exact e ▸ ih
      · rw [he] at e; injection e with _ e; exact e ▸ ih
      · rw [he] at e
        obtain ⟨h1, h2, _⟩ := Native.record_stats e
        rw [h1, h2]
        exact ih
    | assumps _ e ih =>
      obtain ⟨_, _, e⟩ := hA e
      obtain ⟨h1, h2, _⟩ := Native.record_stats e
      rw [h1, h2]
      exact ih
  refine ⟨key.1, key.2, fun A r n' e => ?_⟩
  obtain ⟨_, _, e⟩ := hA e
  exact (Native.record_stats e).2.2

/-- The wrapper as a solver in the sense of the trait `Solve`. -/
instance : Solve (Native H) where
  init _ := Native.new
  addClause n c := match n.addClause c with
    | some n' => (some (), n')
    | none => (none, n)
  solve n := (n.solve.1.toOption, n.solve.2)
  litVal n l := (n.litVal l).toOption

/-- C69: the wrapper of a correct library is a correct solver, so that the theorems about the simulator of incremental
solvers (C56) and other users of solvers hold for it. -/
instance C69_lawful : LawfulSolve (Native H) where
  holds n F := IpasirReach n F
  init _ := .new
  add := by
    intro s F c s' h e
    cases hc : Native.addClause s c with
    | none =>
      have : Solve.addClause s c = (none, s) := by show (match Native.addClause s c with | some _ => _ | none => _) = _; rw [hc]
      rw [this] at e; injection e with e _; cases e
    | some n' =>
      have : Solve.addClause s c = (some (), n') := by
        show (match Native.addClause s c with | some _ => _ | none => _) = _; rw [hc]
      rw [this] at e
      injection e with _ e
      subst e
      exact .add h hc
  solveSat := by
    intro s F s' h e
    have e1 : s.solve.1.toOption = some .sat := congrArg Prod.fst e
    have e2 : s.solve.2 = s' := congrArg Prod.snd e
    obtain ⟨r, n', hr⟩ := (C69_no_failure h).2.1
    rw [hr] at e1 e2
    have e1 : r = .sat := by injection e1
    have e2 : n' = s' := e2
    subst e1 e2
    exact (C69_solve h hr).1 rfl
  solveUnsat := by
    intro s F s' h e
    have e1 : s.solve.1.toOption = some .unsat := congrArg Prod.fst e
    obtain ⟨r, n', hr⟩ := (C69_no_failure h).2.1
    rw [hr] at e1
    have e1 : r = .unsat := by injection e1
    subst e1
    exact ((C69_solve h hr).2 rfl).1

end
end RustSat
