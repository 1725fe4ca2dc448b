import Verif.Lemmas.CadicalApi
/-
Every allowed call of the CaDiCaL wrapper keeps the contract and the invariants.
-/
namespace RustSat.CadicalApi

variable {w : Wrapper}

theorem Wrapper.addClause_ok (h : Sync w) (c : Clause) :
    ∃ l', w.addClause none c = .ret (.ok ()) ⟨l', .input⟩ ∧ l'.state = .steady ∧
      l'.clauses = w.lib.clauses ++ [w.lib.openClause ++ c] ∧ l'.openClause = [] ∧
      l'.toSteady.assumps = w.lib.toSteady.assumps ∧ l'.toSteady.constr = w.lib.toSteady.constr ∧
      l'.frozen = w.lib.frozen := by
  obtain ⟨l1, e, h1, h2, h3, h4, h5, h6⟩ := pass_add c w.lib h.ready.2
  have hv := l1.valid_iff.2 h1
  refine ⟨{ l1.toSteady with clauses := l1.toSteady.clauses ++ [l1.toSteady.openClause], openClause := [] }, ?_,
    l1.toSteady_state, ?_, rfl, ?_, ?_, ?_⟩
  · unfold Wrapper.addClause
    rw [e]
    show (l1.addZero true).thenDo _ _ = _
    unfold Lib.addZero
    rw [hv]
    rfl
  · show l1.toSteady.clauses ++ [l1.toSteady.openClause] = _
    rw [l1.toSteady_clauses, l1.toSteady_open, h2, h3]
  · exact (Lib.toSteady_of { l1.toSteady with clauses := l1.toSteady.clauses ++ [l1.toSteady.openClause], openClause := [] }
      (.inl l1.toSteady_state)).1.trans h4
  · exact (Lib.toSteady_of { l1.toSteady with clauses := l1.toSteady.clauses ++ [l1.toSteady.openClause], openClause := [] }
      (.inl l1.toSteady_state)).2.trans h5
  · show l1.toSteady.frozen = _
    rw [l1.toSteady_frozen, h6]

theorem Wrapper.addClause_zero (h : Sync w) (c : Clause) :
    w.addClause (some 0) c = .ret (.error .outOfMemory) ⟨w.lib.toSteady, .input⟩ := by
  have hv := w.lib.valid_iff.2 h.ready.2
  unfold Wrapper.addClause
  cases c with
  | nil =>
    show (w.lib.addZero false).thenDo _ _ = _
    unfold Lib.addZero
    rw [hv]
    rfl
  | cons x xs =>
    show ((w.lib.add false x).bind _).thenDo _ _ = _
    unfold Lib.add
    rw [hv]
    rfl

theorem Wrapper.addTmp_ok (h : Sync w) (c : Clause) :
    ∃ l', w.addTmp none c = .ret (.ok ()) ⟨l', .input⟩ ∧ l'.state = .steady ∧
      l'.clauses = w.lib.clauses ∧ l'.openClause = w.lib.openClause ∧
      l'.toSteady.assumps = w.lib.toSteady.assumps ∧ l'.toSteady.constr = some (w.lib.toSteady.constrLits ++ c, true) ∧
      l'.frozen = w.lib.frozen := by
  obtain ⟨l1, e, h1, h2, h3, h4, h5, h6⟩ := pass_constrain c w.lib h.ready.2
  have hv := l1.valid_iff.2 h1
  refine ⟨{ l1.toSteady with constr := some (l1.toSteady.constrLits, true) }, ?_, l1.toSteady_state, ?_, ?_, ?_, ?_, ?_⟩
  · unfold Wrapper.addTmp
    rw [e]
    show (l1.constrainZero true).thenDo _ _ = _
    unfold Lib.constrainZero
    rw [hv]
    rfl
  · show l1.toSteady.clauses = _
    rw [l1.toSteady_clauses, h2]
  · show l1.toSteady.openClause = _
    rw [l1.toSteady_open, h3]
  · exact (Lib.toSteady_of { l1.toSteady with constr := some (l1.toSteady.constrLits, true) }
      (.inl l1.toSteady_state)).1.trans h4
  · refine (Lib.toSteady_of { l1.toSteady with constr := some (l1.toSteady.constrLits, true) }
      (.inl l1.toSteady_state)).2.trans ?_
    show some (l1.toSteady.constrLits, true) = _
    rw [h5]
  · show l1.toSteady.frozen = _
    rw [l1.toSteady_frozen, h6]

theorem Wrapper.addTmp_zero (h : Sync w) (c : Clause) :
    w.addTmp (some 0) c = .ret (.error .outOfMemory) ⟨w.lib.toSteady, .input⟩ := by
  have hv := w.lib.valid_iff.2 h.ready.2
  unfold Wrapper.addTmp
  cases c with
  | nil =>
    show (w.lib.constrainZero false).thenDo _ _ = _
    unfold Lib.constrainZero
    rw [hv]
    rfl
  | cons x xs =>
    show ((w.lib.constrain false x).bind _).thenDo _ _ = _
    unfold Lib.constrain
    rw [hv]
    rfl

theorem Sync.steady (l : Lib) (h : l.state = .steady) : Sync ⟨l, .input⟩ :=
  Sync.input (by rw [h]; exact ⟨nofun, nofun⟩)

/-- What `solve` and the `match` over its result do. -/
theorem search_record {l : Lib} (h : l.state ≠ .adding ∧ l.state ≠ .solving) (s : NState) {a : Answer}
    (ha : a matches .oom → False) :
    ∃ r w', (l.solve a).thenDo s Wrapper.record = .ret (.ok r) w' ∧ Sync w' := by
  rw [Lib.solve_ready h]
  cases a with
  | oom => exact absurd rfl ha
  | sat m => exact ⟨_, _, rfl, nofun, nofun, fun _ => rfl, nofun⟩
  | unsat f c => exact ⟨_, _, rfl, nofun, nofun, nofun, fun _ _ => rfl⟩
  | unknown => exact ⟨_, _, rfl, Sync.input ⟨nofun, nofun⟩⟩

theorem Sync.solve (h : Sync w) {a : Answer} (ha : a matches .oom → False) :
    ∃ r w', w.solve a = .ret (.ok r) w' ∧ Sync w' := by
  unfold Wrapper.solve
  split
  · exact ⟨_, _, rfl, h⟩
  · exact ⟨_, _, rfl, h⟩
  · exact search_record h.ready _ ha

theorem Sync.simplify (h : Sync w) (n : Nat) {a : Answer} (ha : a matches .oom → False) :
    ∃ r w', w.simplify n a = .ret r w' ∧ Sync w' := by
  unfold Wrapper.simplify
  split
  · exact ⟨_, _, rfl, h⟩
  · exact ⟨_, _, rfl, h⟩
  · split
    · obtain ⟨r, w', e, h'⟩ := search_record h.ready w.state ha
      exact ⟨_, _, e, h'⟩
    · exact ⟨_, _, rfl, h⟩

theorem pass_assume_ready (h : Sync w) {k' : Option Nat} {l' : Lib} {A : List Lit}
    (h1 : A ≠ [] → l'.state = .steady) (h2 : A = [] → l' = w.lib) (_ : k' = k') :
    l'.state ≠ .adding ∧ l'.state ≠ .solving := by
  by_cases hA : A = []
  · rw [h2 hA]; exact h.ready
  · rw [h1 hA]; exact ⟨nofun, nofun⟩

theorem Sync.simplifyAssumps (h : Sync w) {k : Option Nat} (hk : k = none ∨ w.state = .input) (A : List Lit) (n : Nat)
    {a : Answer} (ha : a matches .oom → False) : ∃ r w', w.simplifyAssumps k A n a = .ret r w' ∧ Sync w' := by
  unfold Wrapper.simplifyAssumps
  split
  · exact ⟨_, _, rfl, h⟩
  · exact ⟨_, _, rfl, h⟩
  · split
    · rcases pass_assume A w.lib k h.ready.2 with ⟨k', l', e, h1, h2, _⟩ | ⟨hk', l', e, h1, _⟩
      · rw [e]
        obtain ⟨r, w', e', h'⟩ := search_record (pass_assume_ready h h1 h2 (Eq.refl k')) w.state ha
        exact ⟨_, _, e', h'⟩
      · rw [e]
        refine ⟨_, _, rfl, ?_⟩
        rcases hk with hk | hk
        · exact absurd hk hk'
        · rw [hk]; exact Sync.steady _ h1
    · exact ⟨_, _, rfl, h⟩

theorem Sync.solveAssumps (h : Sync w) {k : Option Nat} (hk : k = none ∨ w.state = .input) (A : List Lit)
    {a : Answer} (ha : a matches .oom → False) : ∃ r w', w.solveAssumps k A a = .ret r w' ∧ Sync w' := by
  unfold Wrapper.solveAssumps
  rcases pass_assume A w.lib k h.ready.2 with ⟨k', l', e, h1, h2, _⟩ | ⟨hk', l', e, h1, _⟩
  · rw [e]
    simp only [Call.thenDo]
    rw [Lib.solve_ready (pass_assume_ready h h1 h2 (Eq.refl k'))]
    cases a with
    | oom => exact absurd rfl ha
    | sat m => exact ⟨_, _, rfl, nofun, nofun, fun _ => rfl, nofun⟩
    | unsat f c =>
      simp only [Lib.search]
      rw [coreAssumps_ok _ rfl]
      exact ⟨_, _, rfl, nofun, nofun, nofun, fun _ _ => rfl⟩
    | unknown => exact ⟨_, _, rfl, Sync.input ⟨nofun, nofun⟩⟩
  · rw [e]
    refine ⟨_, _, rfl, ?_⟩
    rcases hk with hk | hk
    · exact absurd hk hk'
    · rw [hk]; exact Sync.steady _ h1

theorem Sync.propagate (h : Sync w) (k : Option Nat) (A : List Lit) (a : Answer) :
    ∃ r w', w.propagate k A a = .ret r w' ∧ Sync w' := by
  unfold Wrapper.propagate
  rcases pass_assume A w.lib k h.ready.2 with ⟨k', l', e, h1, h2, _⟩ | ⟨hk', l', e, h1, _⟩
  · rw [e]
    simp only [Call.thenDo]
    rw [Lib.propagate_ready (pass_assume_ready h h1 h2 (Eq.refl k')).2]
    cases a with
    | oom => exact ⟨_, _, rfl, Sync.steady _ l'.toSteady_state⟩
    | sat m => exact ⟨_, _, rfl, nofun, nofun, fun _ => rfl, nofun⟩
    | unsat f c => exact ⟨_, _, rfl, Sync.input ⟨nofun, nofun⟩⟩
    | unknown => exact ⟨_, _, rfl, Sync.input ⟨nofun, nofun⟩⟩
  · rw [e]
    exact ⟨_, _, rfl, Sync.steady _ h1⟩

/-- A call that leaves the state of wrapper and library, and all but the model and the frozen variables. -/
structure Kept (l l' : Lib) : Prop where
  state : l'.state = l.state
  clauses : l'.clauses = l.clauses
  opn : l'.openClause = l.openClause
  constr : l'.constr = l.constr
  assumps : l'.assumps = l.assumps

theorem Kept.refl (l : Lib) : Kept l l := ⟨rfl, rfl, rfl, rfl, rfl⟩

theorem Kept.toSteady {l l' : Lib} (h : Kept l l') :
    l'.toSteady.assumps = l.toSteady.assumps ∧ l'.toSteady.constr = l.toSteady.constr := by
  unfold Lib.toSteady
  rw [h.state, h.constr, h.assumps]
  cases l.state <;> exact ⟨rfl, rfl⟩

/-- Calls that are no queries and change no clauses. -/
def Calm : Op → Prop
  | .litVal _ | .core | .tmpInCore | .flip _ _ | .flippable _ _ | .phase | .quiet | .setOption _ | .traceProof
  | .freeze _ | .melt _ | .isFrozen _ | .setConfiguration | .limit _ => True
  | _ => False

theorem Out.map_ret {α β : Type} {P : Wrapper → Prop} {f : α → β} {o : Out α} (h : ∃ r w', o = .ret r w' ∧ P w') :
    ∃ r w', o.map f = .ret r w' ∧ P w' := by
  obtain ⟨r, w', rfl, h⟩ := h
  cases r with
  | ok a => exact ⟨_, _, rfl, h⟩
  | error e => exact ⟨_, _, rfl, h⟩

theorem Wrapper.plain_kept {f : Lib → Call Unit} (h : ∃ l', f w.lib = .ok () l' ∧ Kept w.lib l') :
    ∃ r w', w.plain f = .ret r w' ∧ w'.state = w.state ∧ Kept w.lib w'.lib := by
  obtain ⟨l', e, h⟩ := h
  unfold Wrapper.plain
  rw [e]
  exact ⟨_, _, rfl, rfl, h⟩

theorem Lib.quiet_kept {l : Lib} (h : l.state ≠ .solving) : ∃ l', l.quiet = .ok () l' ∧ Kept l l' := by
  unfold Lib.quiet
  rw [l.valid_iff.2 h]
  exact ⟨_, rfl, Kept.refl _⟩

theorem Lib.configure_kept {l : Lib} (h : l.state = .configuring) : ∃ l', l.configure = .ok () l' ∧ Kept l l' := by
  unfold Lib.configure
  rw [h]
  exact ⟨_, rfl, Kept.refl _⟩

/-- Calls that are no queries return, and leave the states and the clauses. -/
theorem Sync.calm (h : Sync w) {op : Op} (hc : Calm op) (ha : Allowed w op) :
    ∃ r w', w.call op = .ret r w' ∧ w'.state = w.state ∧ Kept w.lib w'.lib := by
  have hv := w.lib.valid_iff.2 h.ready.2
  have hid : ∃ w', w = w' ∧ w'.state = w.state ∧ Kept w.lib w'.lib := ⟨w, rfl, rfl, Kept.refl _⟩
  cases op with
  | litVal x =>
    refine Out.map_ret (P := fun w' => w'.state = w.state ∧ Kept w.lib w'.lib) ?_
    unfold Wrapper.litVal
    split
    next hs =>
      unfold Lib.val
      rw [h.sat hs]
      exact ⟨_, _, rfl, hs.symm, Kept.refl _⟩
    · exact ⟨_, _, rfl, rfl, Kept.refl _⟩
  | core =>
    refine Out.map_ret (P := fun w' => w'.state = w.state ∧ Kept w.lib w'.lib) ?_
    unfold Wrapper.core
    split <;> exact ⟨_, _, rfl, rfl, Kept.refl _⟩
  | tmpInCore =>
    refine Out.map_ret (P := fun w' => w'.state = w.state ∧ Kept w.lib w'.lib) ?_
    unfold Wrapper.tmpInCore
    split
    next hs =>
      unfold Lib.constraintFailed
      rw [h.unsat _ hs]
      exact ⟨_, _, rfl, hs.symm, Kept.refl _⟩
    · exact ⟨_, _, rfl, rfl, Kept.refl _⟩
  | flip x m =>
    refine Out.map_ret (P := fun w' => w'.state = w.state ∧ Kept w.lib w'.lib) ?_
    unfold Wrapper.flip
    split
    next hs =>
      unfold Lib.flip
      rw [h.sat hs]
      cases m with
      | none => exact ⟨_, _, rfl, hs.symm, Kept.refl _⟩
      | some m => exact ⟨_, _, rfl, hs.symm, (h.sat hs).symm, rfl, rfl, rfl, rfl⟩
    · exact ⟨_, _, rfl, rfl, Kept.refl _⟩
  | flippable x r =>
    refine Out.map_ret (P := fun w' => w'.state = w.state ∧ Kept w.lib w'.lib) ?_
    unfold Wrapper.flippable
    split
    next hs =>
      unfold Lib.flippable
      rw [h.sat hs]
      exact ⟨_, _, rfl, hs.symm, Kept.refl _⟩
    · exact ⟨_, _, rfl, rfl, Kept.refl _⟩
  | phase => exact ⟨_, _, rfl, rfl, Kept.refl _⟩
  | quiet => exact Out.map_ret (Wrapper.plain_kept (Lib.quiet_kept h.ready.2))
  | setOption o =>
    refine Out.map_ret (Wrapper.plain_kept ⟨w.lib, ?_, Kept.refl _⟩)
    simp only [Lib.set]
    rw [hv]
    rcases ha with ha | ha
    · rw [ha]; rfl
    · rw [h.conf ha]; cases o <;> rfl
  | traceProof => exact Out.map_ret (Wrapper.plain_kept (Lib.configure_kept (h.conf ha)))
  | freeze v =>
    refine Out.map_ret (Wrapper.plain_kept ⟨{ w.lib with frozen := v :: w.lib.frozen, nVars := max w.lib.nVars (v + 1) },
      ?_, rfl, rfl, rfl, rfl, rfl⟩)
    simp only [Lib.freeze]
    rw [hv]
    rfl
  | melt v =>
    refine Out.map_ret (Wrapper.plain_kept ⟨{ w.lib with frozen := w.lib.frozen.erase v }, ?_, rfl, rfl, rfl, rfl, rfl⟩)
    simp only [Lib.melt]
    have : w.lib.frozen.contains v = true := by simpa using (show v ∈ w.lib.frozen from ha)
    rw [hv, this]
    rfl
  | isFrozen v =>
    refine Out.map_ret (P := fun w' => w'.state = w.state ∧ Kept w.lib w'.lib) ?_
    unfold Wrapper.isFrozen Lib.isFrozen
    rw [hv]
    exact ⟨_, _, rfl, rfl, Kept.refl _⟩
  | setConfiguration =>
    refine Out.map_ret (P := fun w' => w'.state = w.state ∧ Kept w.lib w'.lib) ?_
    unfold Wrapper.setConfiguration
    split
    next hs => exact Wrapper.plain_kept (Lib.configure_kept (h.conf hs))
    · exact ⟨_, _, rfl, rfl, Kept.refl _⟩
  | limit n =>
    refine Out.map_ret (P := fun w' => w'.state = w.state ∧ Kept w.lib w'.lib) ?_
    unfold Wrapper.limit
    split
    · split
      · exact Wrapper.plain_kept (Lib.quiet_kept h.ready.2)
      · exact ⟨_, _, rfl, rfl, Kept.refl _⟩
    · exact Wrapper.plain_kept (Lib.quiet_kept h.ready.2)
  | _ => exact absurd hc id

/-- Every allowed call returns, and leaves states that fit. -/
theorem Sync.call (h : Sync w) {op : Op} (ha : Allowed w op) : ∃ r w', w.call op = .ret r w' ∧ Sync w' := by
  have hv := w.lib.valid_iff.2 h.ready.2
  by_cases hc : Calm op
  · obtain ⟨r, w', e, h1, h2⟩ := h.calm hc ha
    refine ⟨r, w', e, ?_⟩
    have := h.same h2.state
    rw [← h1] at this
    exact this
  · cases op with
    | addClause k c =>
      refine Out.map_ret ?_
      rcases ha with rfl | rfl
      · obtain ⟨l', e, h1, _⟩ := w.addClause_ok h c
        exact ⟨_, _, e, Sync.steady _ h1⟩
      · exact ⟨_, _, w.addClause_zero h c, Sync.steady _ w.lib.toSteady_state⟩
    | addTmp k c =>
      refine Out.map_ret ?_
      rcases ha with rfl | rfl
      · obtain ⟨l', e, h1, _⟩ := w.addTmp_ok h c
        exact ⟨_, _, e, Sync.steady _ h1⟩
      · exact ⟨_, _, w.addTmp_zero h c, Sync.steady _ w.lib.toSteady_state⟩
    | reserve mem v =>
      refine Out.map_ret ?_
      unfold Wrapper.reserve Lib.resize
      rw [hv]
      cases mem
      · exact ⟨_, _, rfl, Sync.steady _ w.lib.toSteady_state⟩
      · exact ⟨_, _, rfl, Sync.steady _ w.lib.toSteady_state⟩
    | solve a =>
      obtain ⟨r, w', e, h'⟩ := h.solve ha
      exact Out.map_ret ⟨_, _, e, h'⟩
    | solveAssumps k A a => exact Out.map_ret (h.solveAssumps ha.2 A ha.1)
    | simplify n a => exact Out.map_ret (h.simplify n ha)
    | simplifyAssumps k A n a => exact Out.map_ret (h.simplifyAssumps ha.2 A n ha.1)
    | propagate k A a => exact Out.map_ret (h.propagate k A a)
    | declareMore n =>
      refine Out.map_ret ?_
      unfold Wrapper.declareMore Lib.declareMore
      rw [hv, show w.state = .input from ha]
      exact ⟨_, _, rfl, Sync.steady _ w.lib.toSteady_state⟩
    | _ => exact absurd trivial hc

theorem Reach.sync (h : Reach w) : Sync w := by
  induction h with
  | new => exact ⟨fun _ => rfl, nofun, nofun, nofun⟩
  | step op _ ha e ih =>
    obtain ⟨r, w', e', h'⟩ := ih.call ha
    rw [e] at e'
    injection e' with _ e2
    subst e2
    exact h'

end RustSat.CadicalApi
