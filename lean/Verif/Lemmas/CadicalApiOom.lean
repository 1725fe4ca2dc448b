import Verif.Lemmas.CadicalApiStep
/-
What the calls that run out of memory leave, for C99.
-/
namespace RustSat.CadicalApi

theorem Answer.oom_or (a : Answer) : a = .oom ∨ (a matches .oom → False) := by
  cases a with
  | oom => exact .inl rfl
  | _ => exact .inr nofun

variable {w w' : Wrapper}

theorem Out.map_ok_ne {α β : Type} {f : α → β} {o : Out α} {x : α} {w w' : Wrapper} (h : o = .ret (.ok x) w) :
    o.map f ≠ .ret (.error .outOfMemory) w' := by
  subst h
  nofun

theorem Out.map_oom {α β : Type} {f : α → β} {o : Out α} {w w' : Wrapper} (h : o = .ret (.error .outOfMemory) w)
    (e : o.map f = .ret (.error .outOfMemory) w') : w' = w := by
  subst h
  injection e with _ e
  exact e.symm

theorem Out.of_map {α β : Type} {f : α → β} {o : Out α} {w : Wrapper}
    (e : o.map f = .ret (.error .outOfMemory) w) : o = .ret (.error .outOfMemory) w := by
  cases o with
  | broken => cases e
  | ret r w1 =>
    cases r with
    | ok => cases e
    | error x =>
      injection e with e1 e2
      injection e1 with e1
      rw [e1, e2]

theorem Sync.reserve_kept (h : Sync w) (mem : Bool) (v : Nat) (e : w.call (.reserve mem v) = .ret (.error .outOfMemory) w') :
    w'.lib.clauses = w.lib.clauses ∧ w'.lib.openClause = w.lib.openClause := by
  have e := Out.of_map (o := w.reserve mem v) e
  unfold Wrapper.reserve Lib.resize at e
  have hv := w.lib.valid_iff.2 h.ready.2
  rw [hv] at e
  cases mem with
  | true => cases e
  | false =>
    injection e with _ e
    subst e
    exact ⟨(Same.toSteady _).clauses, (Same.toSteady _).opn⟩

theorem search_thenDo_ne {l : Lib} (h : l.state ≠ .adding ∧ l.state ≠ .solving) (s : NState) {a : Answer}
    (ha : a matches .oom → False) : (l.solve a).thenDo s Wrapper.record ≠ .ret (.error .outOfMemory) w' := by
  obtain ⟨r, w1, e, _⟩ := search_record h s ha
  rw [e]
  nofun

theorem Sync.simplify_ne (h : Sync w) (n : Nat) {a : Answer} (ha : a matches .oom → False) :
    w.call (.simplify n a) ≠ .ret (.error .outOfMemory) w' := by
  intro e
  have e := Out.of_map (o := w.simplify n a) e
  unfold Wrapper.simplify at e
  cases hs : w.state with
  | sat => rw [hs] at e; cases e
  | unsat c => rw [hs] at e; cases e
  | _ =>
    rw [hs] at e
    by_cases hn : (n : Int) ≤ i32Max
    · simp only [if_pos hn] at e
      exact search_thenDo_ne h.ready _ ha e
    · simp only [if_neg hn] at e
      cases e

theorem Sync.declare_ne (h : Sync w) (n : Nat) :
    w.call (.declareMore n) ≠ .ret (.error .outOfMemory) w' := by
  intro e
  have e := Out.of_map (o := w.declareMore n) e
  unfold Wrapper.declareMore Lib.declareMore at e
  have hv := w.lib.valid_iff.2 h.ready.2
  rw [hv] at e
  cases e

/-- What is left if memory runs out while assumptions are passed. -/
theorem Sync.pass_oom (h : Sync w) (k : Option Nat) (A : List Lit) :
    (∃ k' l', pass Lib.assume w.lib k A = .ok k' l' ∧ (l'.state ≠ .adding ∧ l'.state ≠ .solving) ∧
      l'.clauses = w.lib.clauses ∧ l'.openClause = w.lib.openClause) ∨
    ∃ l', pass Lib.assume w.lib k A = .oom l' ∧ l'.clauses = w.lib.clauses ∧ l'.openClause = w.lib.openClause := by
  rcases pass_assume A w.lib k h.ready.2 with ⟨k', l', e, h1, h2, h3, h4, _⟩ | ⟨_, l', e, _, h3, h4, _⟩
  · exact .inl ⟨k', l', e, pass_assume_ready h h1 h2 (rfl : k' = k'), h3, h4⟩
  · exact .inr ⟨l', e, h3, h4⟩

theorem Sync.solveAssumps_oom (h : Sync w) {k : Option Nat} {A : List Lit} {a : Answer} (ha : a matches .oom → False)
    (e : w.call (.solveAssumps k A a) = .ret (.error .outOfMemory) w') :
    w'.lib.clauses = w.lib.clauses ∧ w'.lib.openClause = w.lib.openClause := by
  have e := Out.of_map (o := w.solveAssumps k A a) e
  unfold Wrapper.solveAssumps at e
  rcases h.pass_oom k A with ⟨k', l, e1, hl, _⟩ | ⟨l, e1, h1, h2⟩
  · rw [e1] at e
    simp only [Call.thenDo, Lib.solve_ready hl] at e
    cases a with
    | oom => exact (ha rfl).elim
    | sat m => cases e
    | unknown => cases e
    | unsat f c =>
      simp only [Lib.search] at e
      rw [coreAssumps_ok _ rfl] at e
      cases e
  · rw [e1] at e
    injection e with _ e
    subst e
    exact ⟨h1, h2⟩

theorem Sync.simplifyAssumps_oom (h : Sync w) {k : Option Nat} {A : List Lit} {n : Nat} {a : Answer}
    (ha : a matches .oom → False) (e : w.call (.simplifyAssumps k A n a) = .ret (.error .outOfMemory) w') :
    w'.lib.clauses = w.lib.clauses ∧ w'.lib.openClause = w.lib.openClause := by
  have e := Out.of_map (o := w.simplifyAssumps k A n a) e
  unfold Wrapper.simplifyAssumps at e
  cases hs : w.state with
  | sat => rw [hs] at e; cases e
  | unsat c => rw [hs] at e; cases e
  | _ =>
    rw [hs] at e
    by_cases hn : (n : Int) ≤ i32Max
    · simp only [if_pos hn] at e
      rcases h.pass_oom k A with ⟨k', l, e1, hl, _⟩ | ⟨l, e1, h1, h2⟩
      · rw [e1] at e
        exact absurd e (search_thenDo_ne hl _ ha)
      · rw [e1] at e
        injection e with _ e
        subst e
        exact ⟨h1, h2⟩
    · simp only [if_neg hn] at e
      cases e

theorem Sync.propagate_oom (h : Sync w) {k : Option Nat} {A : List Lit} {a : Answer}
    (e : w.call (.propagate k A a) = .ret (.error .outOfMemory) w') :
    w'.lib.clauses = w.lib.clauses ∧ w'.lib.openClause = w.lib.openClause := by
  have e := Out.of_map (o := w.propagate k A a) e
  unfold Wrapper.propagate at e
  rcases h.pass_oom k A with ⟨k', l, e1, hl, h1, h2⟩ | ⟨l, e1, h1, h2⟩
  · rw [e1] at e
    simp only [Call.thenDo, Lib.propagate_ready hl.2] at e
    cases a with
    | oom =>
      injection e with _ e
      subst e
      exact ⟨(Same.toSteady _).clauses.trans h1, (Same.toSteady _).opn.trans h2⟩
    | sat m => cases e
    | unknown => cases e
    | unsat f c => cases e
  · rw [e1] at e
    injection e with _ e
    subst e
    exact ⟨h1, h2⟩

end RustSat.CadicalApi
