import Verif.Lemmas.CadicalApiStep
import Verif.Lemmas.Lit
/-
With enough memory, the library knows exactly what it was told through the wrapper.
-/
namespace RustSat.CadicalApi

variable {w : Wrapper} {F : ClauseSet} {t : Option Clause}

/-- The library has the clauses, the temporary clause and no assumptions, and its model is one of the clauses. -/
structure Knows (l : Lib) (F : ClauseSet) (t : Option Clause) (A : List Lit) : Prop where
  clauses : l.clauses = F
  opn : l.openClause = []
  assumps : l.toSteady.assumps = A
  constr : l.toSteady.constr = t.map fun c => (c, true)

/-- The invariant of `Told`. -/
structure TInv (w : Wrapper) (F : ClauseSet) (t : Option Clause) : Prop where
  sync : Sync w
  knows : Knows w.lib F t []
  model : w.state = .sat → ClauseSet.sat w.lib.model F

theorem Knows.problem {l : Lib} {A : List Lit} (h : Knows l F t A) : l.toSteady.problem = query F t A := by
  unfold Lib.problem query
  rw [l.toSteady_clauses, h.clauses, h.assumps, h.constr]
  cases t <;> rfl

theorem Knows.with {l : Lib} {A : List Lit} (h : Knows l F t []) :
    ({ l.toSteady with assumps := l.toSteady.assumps ++ A } : Lib).problem = query F t A := by
  unfold Lib.problem query
  show l.toSteady.clauses ++ _ ++ (l.toSteady.assumps ++ A).map _ = _
  rw [l.toSteady_clauses, h.clauses, h.assumps]
  show F ++ (match l.toSteady.constr with | some (c, true) => [c] | _ => []) ++ _ = _
  rw [h.constr]
  cases t <;> rfl

theorem Knows.done {l : Lib} {A : List Lit} (h : Knows l F t A) {l' : Lib}
    (hs : l'.state = .satisfied ∨ l'.state = .unsatisfied ∨ l'.state = .inconclusive)
    (hc : l'.clauses = l.clauses) (ho : l'.openClause = l.openClause) : Knows l' F none [] :=
  ⟨hc.trans h.clauses, ho.trans h.opn, (l'.toSteady_done hs).1, (l'.toSteady_done hs).2⟩

theorem Knows.kept {l l' : Lib} {A : List Lit} (h : Knows l F t A) (k : Kept l l') : Knows l' F t A :=
  ⟨k.clauses.trans h.clauses, k.opn.trans h.opn, k.toSteady.1.trans h.assumps, k.toSteady.2.trans h.constr⟩

theorem Knows.steady {l : Lib} {A : List Lit} (h : Knows l F t A) : Knows l.toSteady F t A :=
  ⟨l.toSteady_clauses.trans h.clauses, l.toSteady_open.trans h.opn, (Same.toSteady l).assumps.trans h.assumps,
    (Same.toSteady l).constr.trans h.constr⟩

theorem sat_query {m : Asg} {A : List Lit} (h : ClauseSet.sat m (query F t A)) : ClauseSet.sat m F := fun c hc =>
  h c (List.mem_append_left _ (List.mem_append_left _ hc))

theorem query_units {m : Asg} {A : List Lit} (h : ClauseSet.sat m (query F t A)) : ∀ x ∈ A, x.holds m = true := by
  intro x hx
  obtain ⟨y, hy, h'⟩ := h [x] (List.mem_append_right _ (List.mem_map_of_mem hx))
  rwa [List.mem_singleton.1 hy] at h'

/-- The wrapper after a search that was recorded. -/
structure AfterQuery (w' : Wrapper) (r : SolverResult) (F : ClauseSet) (t : Option Clause) (A : List Lit) : Prop where
  inv : TInv w' F none
  sat : r = .sat → w'.state = .sat ∧ ClauseSet.sat w'.lib.model (query F t A)
  unsat : r = .unsat → (∃ core, w'.state = .unsat core ∧ (∀ x ∈ core, x.neg ∈ A)) ∧ ¬ ∃ m, ClauseSet.sat m (query F t A)

theorem knows_search {l : Lib} {A : List Lit} (hk : Knows l F t A) (hl : l.state ≠ .adding ∧ l.state ≠ .solving)
    (s : NState) {a : Answer} (ha : a matches .oom → False) (hr : a.Right (query F t A)) :
    ∃ r w', (l.solve a).thenDo s Wrapper.record = .ret (.ok r) w' ∧ AfterQuery w' r F t A := by
  rw [Lib.solve_ready hl]
  cases a with
  | oom => exact absurd rfl ha
  | sat m =>
    exact ⟨_, _, rfl, ⟨⟨nofun, nofun, fun _ => rfl, nofun⟩, hk.done (.inl rfl) l.toSteady_clauses l.toSteady_open,
      fun _ => sat_query (t := t) (A := A) hr⟩, fun _ => ⟨rfl, hr⟩, nofun⟩
  | unsat f c =>
    exact ⟨_, _, rfl, ⟨⟨nofun, nofun, nofun, fun _ _ => rfl⟩,
      hk.done (.inr (.inl rfl)) l.toSteady_clauses l.toSteady_open, nofun⟩, nofun, fun _ => ⟨⟨[], rfl, nofun⟩, hr⟩⟩
  | unknown =>
    exact ⟨_, _, rfl, ⟨Sync.input ⟨nofun, nofun⟩, hk.done (.inr (.inr rfl)) l.toSteady_clauses l.toSteady_open, nofun⟩,
      nofun, nofun⟩

theorem Knows.pass_assume (hw : Sync w) (h : Knows w.lib F t []) (A : List Lit) :
    ∃ k' l', pass Lib.assume w.lib none A = .ok k' l' ∧ Knows l' F t A ∧ l'.state ≠ .adding ∧ l'.state ≠ .solving := by
  rcases CadicalApi.pass_assume A w.lib none hw.ready.2 with ⟨k', l', e, h1, h2, h3, h4, h5, h6, _⟩ | ⟨hk', _⟩
  · have hr := pass_assume_ready hw h1 h2 (Eq.refl k')
    exact ⟨k', l', e, ⟨h3.trans h.clauses, h4.trans h.opn, by rw [h5, h.assumps]; rfl, h6.trans h.constr⟩, hr⟩
  · exact absurd rfl hk'

theorem TInv.fresh_solve (h : TInv w F t) (hs : w.state = .configuring ∨ w.state = .input ∨ ∃ x xs, w.state = .unsat (x :: xs))
    {a : Answer} (ha : a matches .oom → False) (hr : a.Right w.lib.toSteady.problem) :
    ∃ r w', w.solve a = .ret (.ok r) w' ∧ AfterQuery w' r F t [] := by
  rw [h.knows.problem] at hr
  obtain ⟨r, w', e, q⟩ := knows_search h.knows h.sync.ready w.state ha hr
  refine ⟨r, w', ?_, q⟩
  unfold Wrapper.solve
  rcases hs with hs | hs | ⟨x, xs, hs⟩ <;> (rw [hs] at e ⊢; exact e)

theorem TInv.solveAssumps (h : TInv w F t) (A : List Lit) {a : Answer} (ha : a matches .oom → False)
    (hr : a.Right { w.lib.toSteady with assumps := w.lib.toSteady.assumps ++ A }.problem) :
    ∃ r w', w.solveAssumps none A a = .ret (.ok r) w' ∧ AfterQuery w' r F t A := by
  rw [h.knows.with] at hr
  obtain ⟨k', l, e, hk, hl⟩ := Knows.pass_assume h.sync h.knows A
  unfold Wrapper.solveAssumps
  rw [e]
  simp only [Call.thenDo]
  rw [Lib.solve_ready hl]
  cases a with
  | oom => exact absurd rfl ha
  | sat m =>
    exact ⟨_, _, rfl, ⟨⟨nofun, nofun, fun _ => rfl, nofun⟩, hk.done (.inl rfl) l.toSteady_clauses l.toSteady_open,
      fun _ => sat_query (t := t) (A := A) hr⟩, fun _ => ⟨rfl, hr⟩, nofun⟩
  | unsat f c =>
    simp only [Lib.search]
    rw [coreAssumps_ok _ rfl]
    refine ⟨_, _, rfl, ⟨⟨nofun, nofun, nofun, fun _ _ => rfl⟩,
      hk.done (.inr (.inl rfl)) l.toSteady_clauses l.toSteady_open, nofun⟩, nofun, fun _ => ⟨⟨_, rfl, ?_⟩, hr⟩⟩
    intro x hx
    obtain ⟨y, hy, rfl⟩ := List.mem_map.1 hx
    rw [Lit.neg_neg]
    exact (List.mem_filter.1 hy).1
  | unknown =>
    exact ⟨_, _, rfl, ⟨Sync.input ⟨nofun, nofun⟩, hk.done (.inr (.inr rfl)) l.toSteady_clauses l.toSteady_open, nofun⟩,
      nofun, nofun⟩

theorem TInv.fresh_simplify (h : TInv w F t) (hs : w.state = .configuring ∨ w.state = .input) {n : Nat}
    (hn : (n : Int) ≤ i32Max) {a : Answer} (ha : a matches .oom → False) (hr : a.Right w.lib.toSteady.problem) :
    ∃ r w', w.simplify n a = .ret (.ok r) w' ∧ AfterQuery w' r F t [] := by
  rw [h.knows.problem] at hr
  obtain ⟨r, w', e, q⟩ := knows_search h.knows h.sync.ready w.state ha hr
  refine ⟨r, w', ?_, q⟩
  unfold Wrapper.simplify
  rcases hs with hs | hs <;> (rw [hs] at e ⊢; simp only [if_pos hn]; exact e)

theorem TInv.fresh_simplifyAssumps (h : TInv w F t) (hs : w.state = .configuring ∨ w.state = .input) {n : Nat}
    (hn : (n : Int) ≤ i32Max) (A : List Lit) {a : Answer} (ha : a matches .oom → False)
    (hr : a.Right { w.lib.toSteady with assumps := w.lib.toSteady.assumps ++ A }.problem) :
    ∃ r w', w.simplifyAssumps none A n a = .ret (.ok r) w' ∧ AfterQuery w' r F t A := by
  rw [h.knows.with] at hr
  obtain ⟨k', l, e, hk, hl⟩ := Knows.pass_assume h.sync h.knows A
  obtain ⟨r, w', e', q⟩ := knows_search hk hl w.state ha hr
  refine ⟨r, w', ?_, q⟩
  unfold Wrapper.simplifyAssumps
  rcases hs with hs | hs <;> (rw [hs] at e' ⊢; simp only [if_pos hn]; rw [e]; exact e')

theorem TInv.propagate (h : TInv w F t) (A : List Lit) {a : Answer} (ha : a matches .oom → False)
    (hr : a.Right { w.lib.toSteady with assumps := w.lib.toSteady.assumps ++ A }.problem) :
    ∃ r w', w.propagate none A a = .ret (.ok r) w' ∧ TInv w' F none := by
  rw [h.knows.with] at hr
  obtain ⟨k', l, e, hk, hl⟩ := Knows.pass_assume h.sync h.knows A
  unfold Wrapper.propagate
  rw [e]
  simp only [Call.thenDo]
  rw [Lib.propagate_ready hl.2]
  cases a with
  | oom => exact absurd rfl ha
  | sat m =>
    exact ⟨_, _, rfl, ⟨nofun, nofun, fun _ => rfl, nofun⟩, hk.done (.inl rfl) l.toSteady_clauses l.toSteady_open,
      fun _ => sat_query (t := t) (A := A) hr⟩
  | unsat f c =>
    exact ⟨_, _, rfl, Sync.input ⟨nofun, nofun⟩, hk.done (.inr (.inl rfl)) l.toSteady_clauses l.toSteady_open, nofun⟩
  | unknown =>
    exact ⟨_, _, rfl, Sync.input ⟨nofun, nofun⟩, hk.done (.inr (.inr rfl)) l.toSteady_clauses l.toSteady_open, nofun⟩

/-- Calls that are no queries keep the model, except that flipping gives another model. -/
theorem TInv.calm (h : TInv w F t) {op : Op} (hc : Calm op) (ha : Allowed w op) (hr : RightCall w op)
    {r : Except ApiErr Reply} {w' : Wrapper} (e : w.call op = .ret r w') : TInv w' F t := by
  obtain ⟨r', w1, e1, h1, h2⟩ := h.sync.calm hc ha
  rw [e] at e1
  injection e1 with _ e2
  subst e2
  refine ⟨?_, h.knows.kept h2, fun hs => ?_⟩
  · have := h.sync.same h2.state
    rw [← h1] at this
    exact this
  rw [h1] at hs
  have hm := h.model hs
  have hl := h.sync.sat hs
  have hv := w.lib.valid_iff.2 h.sync.ready.2
  have keep : ∀ {o : Out Reply}, w.call op = o → (∀ r w', o = .ret r w' → w'.lib.model = w.lib.model) →
      ClauseSet.sat w'.lib.model F := by
    intro o ho hk
    rw [hk r w' (ho.symm.trans e)]
    exact hm
  cases op with
  | flip x m =>
    cases m with
    | some m =>
      unfold Wrapper.call Wrapper.flip Lib.flip at e
      rw [hs, hl] at e
      injection e with _ e
      subst e
      have := hr.1
      rw [h.knows.clauses] at this
      exact this
    | none =>
      unfold Wrapper.call Wrapper.flip Lib.flip at e
      rw [hs, hl] at e
      injection e with _ e
      subst e
      exact hm
  | litVal x =>
    unfold Wrapper.call Wrapper.litVal Lib.val at e
    rw [hs, hl] at e
    injection e with _ e
    subst e
    exact hm
  | core =>
    unfold Wrapper.call Wrapper.core at e
    rw [hs] at e
    injection e with _ e
    subst e
    exact hm
  | tmpInCore =>
    unfold Wrapper.call Wrapper.tmpInCore at e
    rw [hs] at e
    injection e with _ e
    subst e
    exact hm
  | flippable x b =>
    unfold Wrapper.call Wrapper.flippable Lib.flippable at e
    rw [hs, hl] at e
    injection e with _ e
    subst e
    exact hm
  | phase =>
    injection e with _ e
    subst e
    exact hm
  | quiet =>
    unfold Wrapper.call Wrapper.plain Lib.quiet Lib.valid at e
    rw [hl] at e
    injection e with _ e
    subst e
    exact hm
  | setOption o =>
    unfold Wrapper.call Wrapper.plain at e
    simp only [Lib.set] at e
    rw [hv, hl] at e
    cases o with
    | true =>
      injection e with _ e
      subst e
      exact hm
    | false => cases e
  | traceProof =>
    unfold Wrapper.call Wrapper.plain Lib.configure at e
    rw [hl] at e
    cases e
  | freeze v =>
    unfold Wrapper.call Wrapper.plain at e
    simp only [Lib.freeze] at e
    rw [hv] at e
    injection e with _ e
    subst e
    exact hm
  | melt v =>
    have hf : w.lib.frozen.contains v = true := by simpa using (show v ∈ w.lib.frozen from ha)
    unfold Wrapper.call Wrapper.plain at e
    simp only [Lib.melt] at e
    rw [hv, hf] at e
    injection e with _ e
    subst e
    exact hm
  | isFrozen v =>
    unfold Wrapper.call Wrapper.isFrozen Lib.isFrozen Lib.valid at e
    rw [hl] at e
    injection e with _ e
    subst e
    exact hm
  | setConfiguration =>
    unfold Wrapper.call Wrapper.setConfiguration at e
    rw [hs] at e
    injection e with _ e
    subst e
    exact hm
  | limit n =>
    have hq : ∀ r w', (w.plain Lib.quiet).map (fun _ => Reply.unit) = .ret r w' → w'.lib.model = w.lib.model := by
      intro r w' e
      unfold Wrapper.plain Lib.quiet Lib.valid at e
      rw [hl] at e
      injection e with _ e
      subst e
      rfl
    cases n with
    | none => exact keep rfl hq
    | some n =>
      by_cases hn : (n : Int) ≤ i32Max
      · refine keep (o := (w.plain Lib.quiet).map (fun _ => Reply.unit)) ?_ hq
        unfold Wrapper.call Wrapper.limit
        simp only [if_pos hn]
      · unfold Wrapper.call Wrapper.limit at e
        simp only [if_neg hn] at e
        injection e with _ e
        subst e
        exact hm
  | _ => exact absurd hc id

theorem Out.map_ok {α β : Type} {f : α → β} {o : Out α} {a : α} {w1 w' : Wrapper} {r : Except ApiErr β}
    (h : o = .ret (.ok a) w1) (e : o.map f = .ret r w') : w1 = w' ∧ r = .ok (f a) := by
  subst h
  injection e with e1 e2
  exact ⟨e2, e1.symm⟩

theorem TInv.step (h : TInv w F t) {op : Op} (ha : Allowed w op) (hm : Enough op) (hr : RightCall w op)
    {r : Except ApiErr Reply} {w' : Wrapper} (e : w.call op = .ret r w') :
    TInv w' (told F t w op).1 (told F t w op).2 := by
  have hv := w.lib.valid_iff.2 h.sync.ready.2
  cases op with
  | addClause k c =>
    obtain rfl : k = none := hm
    obtain ⟨l', e', h1, h2, h3, h4, h5, _⟩ := w.addClause_ok h.sync c
    obtain ⟨rfl, _⟩ := Out.map_ok e' e
    refine ⟨Sync.steady _ h1, ⟨?_, h3, h4.trans h.knows.assumps, h5.trans h.knows.constr⟩, nofun⟩
    show l'.clauses = F ++ [c]
    rw [h2, h.knows.opn, h.knows.clauses]
    rfl
  | addTmp k c =>
    obtain rfl : k = none := hm
    obtain ⟨l', e', h1, h2, h3, h4, h5, _⟩ := w.addTmp_ok h.sync c
    obtain ⟨rfl, _⟩ := Out.map_ok e' e
    refine ⟨Sync.steady _ h1, ⟨h2.trans h.knows.clauses, h3.trans h.knows.opn, h4.trans h.knows.assumps, ?_⟩, nofun⟩
    rw [h5]
    have : w.lib.toSteady.constrLits = [] := by
      unfold Lib.constrLits
      rw [h.knows.constr]
      cases t <;> rfl
    rw [this]
    rfl
  | reserve mem v =>
    obtain rfl : mem = true := hm
    have e' : w.reserve true v =
        .ret (.ok ()) ⟨{ w.lib.toSteady with nVars := max w.lib.toSteady.nVars (v + 1) }, .input⟩ := by
      unfold Wrapper.reserve Lib.resize
      rw [hv]
      rfl
    obtain ⟨rfl, _⟩ := Out.map_ok e' e
    exact ⟨Sync.steady _ w.lib.toSteady_state, h.knows.steady.kept ⟨rfl, rfl, rfl, rfl, rfl⟩, nofun⟩
  | solve a =>
    by_cases hs : w.state = .sat ∨ w.state = .unsat []
    · have et : told F t w (.solve a) = (F, t) := if_pos hs
      rw [et]
      have e' : ∃ r, w.solve a = .ret (.ok r) w := by
        unfold Wrapper.solve
        rcases hs with hs | hs <;> rw [hs] <;> exact ⟨_, rfl⟩
      obtain ⟨r', e'⟩ := e'
      obtain ⟨rfl, _⟩ := Out.map_ok e' e
      exact h
    · have et : told F t w (.solve a) = (F, none) := if_neg hs
      rw [et]
      have hs' : w.state = .configuring ∨ w.state = .input ∨ ∃ x xs, w.state = .unsat (x :: xs) := by
        cases hw : w.state with
        | configuring => exact .inl rfl
        | input => exact .inr (.inl rfl)
        | sat => exact absurd (.inl hw) hs
        | unsat c =>
          cases c with
          | nil => exact absurd (.inr hw) hs
          | cons x xs => exact .inr (.inr ⟨x, xs, rfl⟩)
      obtain ⟨r', w1, e', q⟩ := h.fresh_solve hs' ha hr
      obtain ⟨rfl, _⟩ := Out.map_ok e' e
      exact q.inv
  | solveAssumps k A a =>
    obtain ⟨rfl, _⟩ : k = none ∧ _ := hm
    obtain ⟨r', w1, e', q⟩ := h.solveAssumps A ha.1 hr
    obtain ⟨rfl, _⟩ := Out.map_ok e' e
    exact q.inv
  | simplify n a =>
    by_cases hs : w.state = .configuring ∨ w.state = .input
    · by_cases hn : (n : Int) ≤ i32Max
      · have et : told F t w (.simplify n a) = (F, none) := by unfold told; simp only [if_pos hs, if_pos hn]
        rw [et]
        obtain ⟨r', w1, e', q⟩ := h.fresh_simplify hs hn ha hr
        obtain ⟨rfl, _⟩ := Out.map_ok e' e
        exact q.inv
      · have et : told F t w (.simplify n a) = (F, t) := by unfold told; simp only [if_pos hs, if_neg hn]
        rw [et]
        have e' : w.simplify n a = .ret (.error (.other .convert)) w := by
          unfold Wrapper.simplify
          rcases hs with hs | hs <;> rw [hs] <;> simp only [if_neg hn]
        change (_ : Out SolverResult).map _ = _ at e
        rw [e'] at e
        injection e with _ e
        subst e
        exact h
    · have et : told F t w (.simplify n a) = (F, t) := if_neg hs
      rw [et]
      have e' : ∃ r, w.simplify n a = .ret (.ok r) w := by
        unfold Wrapper.simplify
        cases hw : w.state with
        | configuring => exact absurd (.inl hw) hs
        | input => exact absurd (.inr hw) hs
        | sat => exact ⟨_, rfl⟩
        | unsat c => exact ⟨_, rfl⟩
      obtain ⟨r', e'⟩ := e'
      obtain ⟨rfl, _⟩ := Out.map_ok e' e
      exact h
  | simplifyAssumps k A n a =>
    obtain ⟨rfl, _⟩ : k = none ∧ _ := hm
    by_cases hs : w.state = .configuring ∨ w.state = .input
    · by_cases hn : (n : Int) ≤ i32Max
      · have et : told F t w (.simplifyAssumps none A n a) = (F, none) := by unfold told; simp only [if_pos hs, if_pos hn]
        rw [et]
        obtain ⟨r', w1, e', q⟩ := h.fresh_simplifyAssumps hs hn A ha.1 hr
        obtain ⟨rfl, _⟩ := Out.map_ok e' e
        exact q.inv
      · have et : told F t w (.simplifyAssumps none A n a) = (F, t) := by unfold told; simp only [if_pos hs, if_neg hn]
        rw [et]
        have e' : w.simplifyAssumps none A n a = .ret (.error (.other .convert)) w := by
          unfold Wrapper.simplifyAssumps
          rcases hs with hs | hs <;> rw [hs] <;> simp only [if_neg hn]
        change (_ : Out SolverResult).map _ = _ at e
        rw [e'] at e
        injection e with _ e
        subst e
        exact h
    · have et : told F t w (.simplifyAssumps none A n a) = (F, t) := if_neg hs
      rw [et]
      have e' : ∃ r, w.simplifyAssumps none A n a = .ret (.ok r) w := by
        unfold Wrapper.simplifyAssumps
        cases hw : w.state with
        | configuring => exact absurd (.inl hw) hs
        | input => exact absurd (.inr hw) hs
        | sat => exact ⟨_, rfl⟩
        | unsat c => exact ⟨_, rfl⟩
      obtain ⟨r', e'⟩ := e'
      obtain ⟨rfl, _⟩ := Out.map_ok e' e
      exact h
  | propagate k A a =>
    obtain ⟨rfl, hm⟩ : k = none ∧ _ := hm
    obtain ⟨r', w1, e', q⟩ := h.propagate A hm hr
    obtain ⟨rfl, _⟩ := Out.map_ok e' e
    exact q
  | declareMore n =>
    have e' : w.declareMore n =
        .ret (.ok (w.lib.toSteady.nVars + n)) ⟨{ w.lib.toSteady with nVars := w.lib.toSteady.nVars + n }, .input⟩ := by
      unfold Wrapper.declareMore Lib.declareMore
      rw [hv, show w.state = .input from ha]
      rfl
    obtain ⟨rfl, _⟩ := Out.map_ok e' e
    exact ⟨Sync.steady _ w.lib.toSteady_state, h.knows.steady.kept ⟨rfl, rfl, rfl, rfl, rfl⟩, nofun⟩
  | _ => refine h.calm ?_ ha hr e; exact trivial

theorem Told.inv (h : Told w F t) : TInv w F t := by
  induction h with
  | new => exact ⟨⟨fun _ => rfl, nofun, nofun, nofun⟩, ⟨rfl, rfl, rfl, rfl⟩, nofun⟩
  | step op _ ha hm hr e ih => exact ih.step ha hm hr e

theorem Told.reach (h : Told w F t) : Reach w := by
  induction h with
  | new => exact .new
  | step op _ ha _ _ e ih => exact .step op ih ha e

end RustSat.CadicalApi
