import Verif.Lemmas.Define
/-
`define_unweighted`: soundness of the clauses, no panic.
-/
namespace RustSat
namespace TotDb

theorem missing_none {d : LitData} {req : Semantics} (h : d.missingSemantics req = none) :
    ∃ l s, d = .lit l (some s) ∧ (req.hasIf = true → s.hasIf = true) ∧ (req.hasOnlyIf = true → s.hasOnlyIf = true) := by
  match d with
  | .none => cases h
  | .lit l none => cases h
  | .lit l (some s) =>
    simp only [LitData.missingSemantics] at h
    refine ⟨l, s, rfl, ?_, ?_⟩ <;> revert h <;> cases s <;> cases req <;> decide

theorem missing_some {d : LitData} {req new : Semantics} (h : d.missingSemantics req = some new) :
    (new.hasIf = true ↔ req.hasIf = true ∧ d.hasIf = false) ∧
      (new.hasOnlyIf = true ↔ req.hasOnlyIf = true ∧ d.hasOnlyIf = false) := by
  match d with
  | .none => cases h; simp [LitData.hasIf, LitData.hasOnlyIf]
  | .lit l none => cases h; simp [LitData.hasIf, LitData.hasOnlyIf]
  | .lit l (some s) =>
    simp only [LitData.missingSemantics] at h
    simp only [LitData.hasIf, LitData.hasOnlyIf]
    revert h
    cases s <;> cases req <;> cases new <;> decide

theorem addSemantics_lit (l : Lit) (s : Option Semantics) (req : Semantics) :
    ∃ t, (LitData.lit l s).addSemantics req = .lit l (some t) ∧
      (t.hasIf = true ↔ (LitData.lit l s).hasIf = true ∨ req.hasIf = true) ∧
      (t.hasOnlyIf = true ↔ (LitData.lit l s).hasOnlyIf = true ∨ req.hasOnlyIf = true) := by
  cases s with
  | none => exact ⟨req, rfl, by simp [LitData.hasIf], by simp [LitData.hasOnlyIf]⟩
  | some s =>
    refine ⟨s.add req, rfl, ?_, ?_⟩ <;> simp only [LitData.hasIf, LitData.hasOnlyIf] <;> cases s <;> cases req <;> decide

theorem LitRef.add (l : Lit) (s : Option Semantics) (req : Semantics) :
    LitRef (.lit l s) ((LitData.lit l s).addSemantics req) := by
  obtain ⟨t, h1, h2, h3⟩ := addSemantics_lit l s req
  rw [h1]
  refine ⟨fun l' s' h => ?_, fun h => h2.2 (Or.inl h), fun h => h3.2 (Or.inl h)⟩
  cases h
  exact ⟨_, rfl⟩

theorem LitRef.none (l : Lit) : LitRef .none (LitData.newLit l) :=
  ⟨fun _ _ h => (by cases h), fun h => (by cases h), fun h => (by cases h)⟩

theorem collect_spec {α β : Type} (f : α → Option β) : ∀ l : List α, (∀ a ∈ l, ∃ b, f a = some b) →
    ∃ bs, collect f l = some bs ∧ (∀ a ∈ l, ∃ b ∈ bs, f a = some b) ∧ ∀ b ∈ bs, ∃ a ∈ l, f a = some b := by
  intro l
  induction l with
  | nil => intro _; exact ⟨[], rfl, by simp, by simp⟩
  | cons a as ih =>
    intro h
    obtain ⟨b, hb⟩ := h a (by simp)
    obtain ⟨bs, h1, h2, h3⟩ := ih fun x hx => h x (by simp [hx])
    refine ⟨b :: bs, by simp only [collect, hb, h1], fun x hx => ?_, fun y hy => ?_⟩
    · rcases List.mem_cons.1 hx with rfl | hx
      · exact ⟨b, by simp, hb⟩
      · obtain ⟨y, hy, e⟩ := h2 x hx; exact ⟨y, by simp [hy], e⟩
    · rcases List.mem_cons.1 hy with rfl | hy
      · exact ⟨a, by simp, hb⟩
      · obtain ⟨x, hx, e⟩ := h3 y hy; exact ⟨x, by simp [hx], e⟩

theorem mem_rangeIncl {a b x : Nat} : x ∈ rangeIncl a b ↔ a ≤ x ∧ x ≤ b := by
  unfold rangeIncl
  rw [List.mem_range'_1]
  omega

theorem sat_cubeImplLit (b : Asg) (cube : List Lit) (o : Lit) :
    Clause.sat b (Atomics.cubeImplLit cube o) ↔ ((∀ x ∈ cube, x.holds b = true) → o.holds b = true) := by
  simp only [Atomics.cubeImplLit, Clause.sat_append, Clause.sat_cons, Clause.sat_nil, or_false]
  constructor
  · rintro (⟨x, hx, hh⟩ | h) hc
    · obtain ⟨y, hy, rfl⟩ := List.mem_map.1 hx
      rw [Lit.holds_neg, hc y hy] at hh; cases hh
    · exact h
  · intro h
    by_cases hc : ∀ x ∈ cube, x.holds b = true
    · exact Or.inr (h hc)
    · left
      simp only [Classical.not_forall] at hc
      obtain ⟨x, hx, hh⟩ := hc
      exact ⟨x.neg, List.mem_map.2 ⟨x, hx, rfl⟩, by rw [Lit.holds_neg]; simpa using hh⟩

theorem mem_cubeImplLit {cube : List Lit} {o x : Lit} (h : x ∈ Atomics.cubeImplLit cube o) :
    (∃ y ∈ cube, y.var = x.var) ∨ x = o := by
  simp only [Atomics.cubeImplLit, List.mem_append, List.mem_map, List.mem_cons, List.not_mem_nil, or_false] at h
  rcases h with ⟨y, hy, rfl⟩ | h
  · exact Or.inl ⟨y, hy, by rw [Lit.var_neg]⟩
  · exact Or.inr h

/-- Output `k` of node `i` is marked with "if" semantics. -/
def MarkedIf (db : Db) (i k : Nat) : Prop := ∃ v d, (db.node i).outData k = some (v, d) ∧ d.hasIf = true

/-- Output `k` of node `i` is marked with "only if" semantics. -/
def MarkedOnly (db : Db) (i k : Nat) : Prop := ∃ v d, (db.node i).outData k = some (v, d) ∧ d.hasOnlyIf = true

/-- Of the outputs of node `i`, only those in `Q` were marked, with the given semantics. -/
structure Adds (db db' : Db) (i : Nat) (Q : Nat → Prop) (sem : Semantics) : Prop where
  if_ : ∀ k, MarkedIf db' i k → MarkedIf db i k ∨ (Q k ∧ sem.hasIf = true)
  only : ∀ k, MarkedOnly db' i k → MarkedOnly db i k ∨ (Q k ∧ sem.hasOnlyIf = true)

theorem Adds.of_node {db db' : Db} {i : Nat} (h : db'.node i = db.node i) (Q : Nat → Prop) (sem : Semantics) :
    Adds db db' i Q sem := by
  refine ⟨fun k hk => Or.inl ?_, fun k hk => Or.inl ?_⟩
  · unfold MarkedIf at hk ⊢; rw [h] at hk; exact hk
  · unfold MarkedOnly at hk ⊢; rw [h] at hk; exact hk

theorem Adds.trans {a b c : Db} {i : Nat} {Q : Nat → Prop} {sem : Semantics} (h1 : Adds a b i Q sem)
    (h2 : Adds b c i Q sem) : Adds a c i Q sem :=
  ⟨fun k hk => (h2.if_ k hk).elim (h1.if_ k) Or.inr, fun k hk => (h2.only k hk).elim (h1.only k) Or.inr⟩

theorem Adds.mono {a b : Db} {i : Nat} {Q Q' : Nat → Prop} {sem : Semantics} (h : Adds a b i Q sem)
    (hQ : ∀ k, Q k → Q' k) : Adds a b i Q' sem :=
  ⟨fun k hk => (h.if_ k hk).imp id fun h => ⟨hQ k h.1, h.2⟩, fun k hk => (h.only k hk).imp id fun h => ⟨hQ k h.1, h.2⟩⟩

theorem OutUpd.adds {db db' : Db} {id k v : Nat} {d d' : LitData} (h : OutUpd db db' id k v d d') {Q : Nat → Prop}
    {sem : Semantics} (h1 : d'.hasIf = true → d.hasIf = true ∨ (Q k ∧ sem.hasIf = true))
    (h2 : d'.hasOnlyIf = true → d.hasOnlyIf = true ∨ (Q k ∧ sem.hasOnlyIf = true)) (i : Nat) : Adds db db' i Q sem := by
  by_cases hi : i = id
  · subst hi
    refine ⟨fun k' hk => ?_, fun k' hk => ?_⟩
    · obtain ⟨v', x, e, hx⟩ := hk
      by_cases hkk : k' = k
      · subst hkk
        rw [h.new] at e
        cases e
        exact (h1 hx).imp (fun h' => ⟨_, _, h.old, h'⟩) fun h => h
      · rw [h.other i k' (Or.inr hkk)] at e
        exact Or.inl ⟨v', x, e, hx⟩
    · obtain ⟨v', x, e, hx⟩ := hk
      by_cases hkk : k' = k
      · subst hkk
        rw [h.new] at e
        cases e
        exact (h2 hx).imp (fun h' => ⟨_, _, h.old, h'⟩) fun h => h
      · rw [h.other i k' (Or.inr hkk)] at e
        exact Or.inl ⟨v', x, e, hx⟩
  · refine ⟨fun k' hk => ?_, fun k' hk => ?_⟩ <;> obtain ⟨v', x, e, hx⟩ := hk <;>
      rw [h.other i k' (Or.inl hi)] at e <;> exact Or.inl ⟨v', x, e, hx⟩

variable {VM : Type} [ManageVars VM]

theorem getOlit_spec [LawfulVM VM] {st : St VM} (hw : st.db.WF) {id idx : Nat} {lits : List LitData} {dp nl : Nat}
    {lc rc : NodeCon} {d : LitData} (hn : st.db.node id = .unit lits dp nl lc rc) (hd : lits[idx]? = some d) :
    ∃ l s st1 lits1, getOlit st id idx = some (l, st1) ∧ Step st st1 ∧ st1.db.node id = .unit lits1 dp nl lc rc ∧
      lits1[idx]? = some (.lit l s) ∧ (d = .lit l s ∨ (d = .none ∧ s = none)) ∧
      (∀ j, j ≠ id → st1.db.node j = st.db.node j) ∧ ∀ Q sem, Adds st.db st1.db id Q sem := by
  have hu : st.db.unitData id idx = some d := by unfold Db.unitData; rw [hn]; exact hd
  match hdd : d with
  | .lit l s =>
    exact ⟨l, s, st, lits, by unfold getOlit; rw [hu], Step.refl _, hn, hd, Or.inl rfl, fun _ _ => rfl,
      fun _ _ => Adds.of_node rfl _ _⟩
  | .none =>
    have hi : idx < lits.length := (List.getElem?_eq_some_iff.1 hd).1
    refine ⟨Lit.pos (ManageVars.newVar st.vm).1, none, _, lits.set idx (LitData.newLit (Lit.pos (ManageVars.newVar st.vm).1)),
      by unfold getOlit; rw [hu], step_alloc (setUnit_upd hn hd (LitRef.none _)) hw, ?_, ?_, Or.inr ⟨rfl, rfl⟩,
      fun j hj => ?_, fun _ _ => (setUnit_upd hn hd (LitRef.none _)).adds (fun h => by cases h) (fun h => by cases h) id⟩
    · simp only; rw [setUnit_node hn, if_pos rfl]
    · rw [List.getElem?_set_self hi]; rfl
    · simp only; rw [setUnit_node hn, if_neg hj]

/-- The specification of a define function on nodes below a bound. -/
def DefSpec (f : St VM → Nat → Nat → Semantics → Option (Lit × St VM)) (bound : Nat) : Prop :=
  ∀ (st : St VM) (id idx : Nat) (sem : Semantics), st.db.WF → id < bound → (st.db.node id).isGeneral = false →
    idx < (st.db.node id).len →
    ∃ l st', f st id idx sem = some (l, st') ∧ Step st st' ∧ HasLit st'.db id idx sem l ∧
      (∀ j, id < j → st'.db.node j = st.db.node j) ∧ Adds st.db st'.db id (· = idx) sem

theorem runRequests_spec {f : St VM → Nat → Nat → Semantics → Option (Lit × St VM)} {bound : Nat}
    (hf : DefSpec f bound) : ∀ (reqs : List (Nat × Nat × Semantics)) (st : St VM), st.db.WF →
    (∀ q ∈ reqs, q.1 < bound ∧ (st.db.node q.1).isGeneral = false ∧ q.2.1 < (st.db.node q.1).len) →
    ∃ st', runRequests f reqs st = some st' ∧ Step st st' ∧
      (∀ q ∈ reqs, ∃ l, HasLit st'.db q.1 q.2.1 q.2.2 l) ∧ ∀ j, bound ≤ j → st'.db.node j = st.db.node j := by
  intro reqs
  induction reqs with
  | nil => intro st _ _; exact ⟨st, rfl, Step.refl _, by simp, fun _ _ => rfl⟩
  | cons q rest ih =>
    intro st hw h
    obtain ⟨q1, q2, q3⟩ := q
    obtain ⟨h1, h2, h3⟩ := h (q1, q2, q3) (by simp)
    obtain ⟨l, st1, e1, s1, l1, n1, -⟩ := hf st q1 q2 q3 hw h1 h2 h3
    obtain ⟨st2, e2, s2, l2, n2⟩ := ih st1 (s1.ref.wf hw) fun q hq => by
      obtain ⟨g1, g2, g3⟩ := h q (by simp [hq])
      exact ⟨g1, by rw [(s1.ref.node q.1).isGeneral]; exact g2, by rw [(s1.ref.node q.1).len]; exact g3⟩
    refine ⟨st2, by simp only [runRequests, e1, e2], s1.trans hw s2, fun q hq => ?_, fun j hj => ?_⟩
    · rcases List.mem_cons.1 hq with rfl | hq
      · exact ⟨l, l1.ref s2.ref⟩
      · exact l2 q hq
    · rw [n2 j hj, n1 j (by simp only at h1; omega)]

theorem litSlice_some {db : Db} {id : Nat} (h1 : db.node id ≠ .dummy) (h2 : (db.node id).isGeneral = false) :
    ∃ lits, litSlice db id = some lits := by
  unfold litSlice
  cases h : db.node id with
  | leaf => exact ⟨_, rfl⟩
  | unit => exact ⟨_, rfl⟩
  | general => rw [h] at h2; cases h2
  | dummy => exact absurd h h1

theorem value_unit {db : Db} (hw : db.WF) {id : Nat} {lits : List LitData} {dp nl : Nat} {lc rc : NodeCon}
    (h : db.node id = .unit lits dp nl lc rc) (T : Lit → Bool) :
    value db T id = conVal db T lc + conVal db T rc := by
  rw [value_eq hw, h]; rfl

theorem dummy_con {db : Db} (hw : db.WF) {c : NodeCon} (h : db.node c.id = .dummy) (T : Lit → Bool) :
    conVal db T c = 0 ∧ db.conLen c = 0 := by
  constructor
  · unfold conVal
    rw [value_eq hw, h]
    exact c.map_zero
  · rw [conLen_eq, h]; exact c.steps_zero

/-- One "if" clause. -/
theorem ifClause_spec {db : Db} (hw : db.WF) {p : Pre} {llits rlits : List LitData} {idx lval : Nat} {olit : Lit}
    (hcl : UnitCon db p.lcon) (hcr : UnitCon db p.rcon)
    (hl : 0 < lval → lval ≤ db.conLen p.lcon ∧ ∃ x, HasLit db p.lcon.id (conIdx (lval - 1) p.lcon) .if_ x ∧
      sliceLit llits (conIdx (lval - 1) p.lcon) = some x)
    (hr : 0 < idx + 1 - lval → idx + 1 - lval ≤ db.conLen p.rcon ∧
      ∃ x, HasLit db p.rcon.id (conIdx (idx + 1 - lval - 1) p.rcon) .if_ x ∧
      sliceLit rlits (conIdx (idx + 1 - lval - 1) p.rcon) = some x) :
    ∃ c, ifClause p llits rlits idx olit lval = some c ∧
      (∀ C, SoundIf db C → ∀ b, ClauseSet.sat b C → Clause.sat b c →
        ∀ T : Lit → Bool, (∀ x, T x = true → x.holds b = true) → lval ≤ conVal db T p.lcon →
        idx + 1 - lval ≤ conVal db T p.rcon → olit.holds b = true) ∧
      (∀ b, Strict db b → (idx + 1 ≤ conVal db (trueLits b) p.lcon + conVal db (trueLits b) p.rcon →
        olit.holds b = true) → lval ≤ idx + 1 → Clause.sat b c) ∧
      ∀ x ∈ c, x = olit ∨ VarIn db x.var := by
  obtain ⟨L, hL, sL, tL, vL⟩ : ∃ L, (if lval > 0 then (sliceLit llits (conIdx (lval - 1) p.lcon)).map fun l => [l]
        else some []) = some L ∧
      (∀ C, SoundIf db C → ∀ b, ClauseSet.sat b C → ∀ T : Lit → Bool, (∀ x, T x = true → x.holds b = true) →
        lval ≤ conVal db T p.lcon → ∀ x ∈ L, x.holds b = true) ∧
      (∀ b, Strict db b → (∀ x ∈ L, x.holds b = true) → lval ≤ conVal db (trueLits b) p.lcon) ∧
      ∀ x ∈ L, VarIn db x.var := by
    by_cases h0 : lval > 0
    · obtain ⟨h1, x, h2, h3⟩ := hl h0
      obtain ⟨-, g⟩ := con_child hcl h0 h1
      refine ⟨[x], by rw [if_pos h0, h3]; rfl, fun C hC b hb T hT hv y hy => ?_, fun b hb hx => ?_, fun y hy => ?_⟩
      · simp only [List.mem_cons, List.not_mem_nil, or_false] at hy
        subst hy
        exact h2.if_ hw rfl hC hb hT ((g T).1 hv)
      · exact (g _).2 ((h2.strict hw hb).1 (hx x (by simp)))
      · simp only [List.mem_cons, List.not_mem_nil, or_false] at hy
        subst hy
        exact h2.varIn
    · exact ⟨[], by rw [if_neg h0], by simp, fun _ _ _ => by omega, by simp⟩
  obtain ⟨R, hR, sR, tR, vR⟩ : ∃ R, (if idx + 1 - lval > 0 then
        (sliceLit rlits (conIdx (idx + 1 - lval - 1) p.rcon)).map fun l => [l] else some []) = some R ∧
      (∀ C, SoundIf db C → ∀ b, ClauseSet.sat b C → ∀ T : Lit → Bool, (∀ x, T x = true → x.holds b = true) →
        idx + 1 - lval ≤ conVal db T p.rcon → ∀ x ∈ R, x.holds b = true) ∧
      (∀ b, Strict db b → (∀ x ∈ R, x.holds b = true) → idx + 1 - lval ≤ conVal db (trueLits b) p.rcon) ∧
      ∀ x ∈ R, VarIn db x.var := by
    by_cases h0 : idx + 1 - lval > 0
    · obtain ⟨h1, x, h2, h3⟩ := hr h0
      obtain ⟨-, g⟩ := con_child hcr h0 h1
      refine ⟨[x], by rw [if_pos h0, h3]; rfl, fun C hC b hb T hT hv y hy => ?_, fun b hb hx => ?_, fun y hy => ?_⟩
      · simp only [List.mem_cons, List.not_mem_nil, or_false] at hy
        subst hy
        exact h2.if_ hw rfl hC hb hT ((g T).1 hv)
      · exact (g _).2 ((h2.strict hw hb).1 (hx x (by simp)))
      · simp only [List.mem_cons, List.not_mem_nil, or_false] at hy
        subst hy
        exact h2.varIn
    · exact ⟨[], by rw [if_neg h0], by simp, fun _ _ _ => by omega, by simp⟩
  refine ⟨Atomics.cubeImplLit (L ++ R) olit, ?_, fun C hC b hb hc T hT h1 h2 => ?_, fun b hb ho hle => ?_,
    fun x hx => ?_⟩
  · unfold ifClause
    simp only [hL, hR]
  · rw [sat_cubeImplLit] at hc
    refine hc fun x hx => ?_
    rcases List.mem_append.1 hx with hx | hx
    · exact sL C hC b hb T hT h1 x hx
    · exact sR C hC b hb T hT h2 x hx
  · rw [sat_cubeImplLit]
    intro hx
    have g1 := tL b hb fun x h => hx x (by simp [h])
    have g2 := tR b hb fun x h => hx x (by simp [h])
    exact ho (by omega)
  · rcases mem_cubeImplLit hx with ⟨y, hy, e⟩ | h
    · rw [← e]
      rcases List.mem_append.1 hy with hy | hy
      · exact Or.inr (vL y hy)
      · exact Or.inr (vR y hy)
    · exact Or.inl h

/-- One "only if" clause. -/
theorem onlyIfClause_spec {db : Db} (hw : db.WF) {p : Pre} {llits rlits : List LitData} {idx lval : Nat} {olit : Lit}
    (hcl : UnitCon db p.lcon) (hcr : UnitCon db p.rcon)
    (hl : lval < db.conLen p.lcon → ∃ x, HasLit db p.lcon.id (conIdx lval p.lcon) .onlyIf x ∧
      sliceLit llits (conIdx lval p.lcon) = some x)
    (hr : idx - lval < db.conLen p.rcon → ∃ x, HasLit db p.rcon.id (conIdx (idx - lval) p.rcon) .onlyIf x ∧
      sliceLit rlits (conIdx (idx - lval) p.rcon) = some x) :
    ∃ c, onlyIfClause db p llits rlits idx olit lval = some c ∧
      (∀ C, SoundOnlyIf db C → ∀ b, ClauseSet.sat b C → Clause.sat b c →
        conVal db (trueLits b) p.lcon ≤ lval → conVal db (trueLits b) p.rcon ≤ idx - lval → olit.holds b = false) ∧
      (∀ b, Strict db b → (olit.holds b = true → idx + 1 ≤ conVal db (trueLits b) p.lcon +
        conVal db (trueLits b) p.rcon) → lval ≤ idx → Clause.sat b c) ∧
      ∀ x ∈ c, x.var = olit.var ∨ VarIn db x.var := by
  obtain ⟨L, hL, sL, tL, vL⟩ : ∃ L, (if lval < db.conLen p.lcon then
        (sliceLit llits (conIdx lval p.lcon)).map fun l => [l.neg] else some []) = some L ∧
      (∀ C, SoundOnlyIf db C → ∀ b, ClauseSet.sat b C → conVal db (trueLits b) p.lcon ≤ lval →
        ∀ x ∈ L, x.holds b = true) ∧
      (∀ b, Strict db b → (∀ x ∈ L, x.holds b = true) → conVal db (trueLits b) p.lcon ≤ lval) ∧
      ∀ x ∈ L, VarIn db x.var := by
    by_cases h0 : lval < db.conLen p.lcon
    · obtain ⟨x, h2, h3⟩ := hl h0
      obtain ⟨-, g⟩ := con_child hcl (k := lval + 1) (by omega) h0
      simp only [Nat.add_sub_cancel] at g
      refine ⟨[x.neg], by rw [if_pos h0, h3]; rfl, fun C hC b hb hv y hy => ?_, fun b hb hx => ?_, fun y hy => ?_⟩
      · simp only [List.mem_cons, List.not_mem_nil, or_false] at hy
        subst hy
        rw [Lit.holds_neg]
        cases hx : x.holds b with
        | false => rfl
        | true =>
          have := (g _).2 (h2.onlyIf hw rfl hC hb hx)
          omega
      · have hxx := hx x.neg (by simp)
        rcases Nat.lt_or_ge lval (conVal db (trueLits b) p.lcon) with hlt | hge
        · have := (h2.strict hw hb).2 ((g _).1 hlt)
          rw [Lit.holds_neg, this] at hxx; cases hxx
        · exact hge
      · simp only [List.mem_cons, List.not_mem_nil, or_false] at hy
        subst hy
        rw [Lit.var_neg]
        exact h2.varIn
    · refine ⟨[], by rw [if_neg h0], by simp, fun b _ _ => ?_, by simp⟩
      have := conVal_le_conLen hw (trueLits b) hcl
      omega
  obtain ⟨R, hR, sR, tR, vR⟩ : ∃ R, (if idx - lval < db.conLen p.rcon then
        (sliceLit rlits (conIdx (idx - lval) p.rcon)).map fun l => [l.neg] else some []) = some R ∧
      (∀ C, SoundOnlyIf db C → ∀ b, ClauseSet.sat b C → conVal db (trueLits b) p.rcon ≤ idx - lval →
        ∀ x ∈ R, x.holds b = true) ∧
      (∀ b, Strict db b → (∀ x ∈ R, x.holds b = true) → conVal db (trueLits b) p.rcon ≤ idx - lval) ∧
      ∀ x ∈ R, VarIn db x.var := by
    by_cases h0 : idx - lval < db.conLen p.rcon
    · obtain ⟨x, h2, h3⟩ := hr h0
      obtain ⟨-, g⟩ := con_child hcr (k := idx - lval + 1) (by omega) h0
      simp only [Nat.add_sub_cancel] at g
      refine ⟨[x.neg], by rw [if_pos h0, h3]; rfl, fun C hC b hb hv y hy => ?_, fun b hb hx => ?_, fun y hy => ?_⟩
      · simp only [List.mem_cons, List.not_mem_nil, or_false] at hy
        subst hy
        rw [Lit.holds_neg]
        cases hx : x.holds b with
        | false => rfl
        | true =>
          have := (g _).2 (h2.onlyIf hw rfl hC hb hx)
          omega
      · have hxx := hx x.neg (by simp)
        rcases Nat.lt_or_ge (idx - lval) (conVal db (trueLits b) p.rcon) with hlt | hge
        · have := (h2.strict hw hb).2 ((g _).1 hlt)
          rw [Lit.holds_neg, this] at hxx; cases hxx
        · exact hge
      · simp only [List.mem_cons, List.not_mem_nil, or_false] at hy
        subst hy
        rw [Lit.var_neg]
        exact h2.varIn
    · refine ⟨[], by rw [if_neg h0], by simp, fun b _ _ => ?_, by simp⟩
      have := conVal_le_conLen hw (trueLits b) hcr
      omega
  refine ⟨Atomics.cubeImplLit (L ++ R) olit.neg, ?_, fun C hC b hb hc h1 h2 => ?_, fun b hb ho hle => ?_,
    fun x hx => ?_⟩
  · unfold onlyIfClause
    simp only [hL, hR]
  · rw [sat_cubeImplLit, Lit.holds_neg] at hc
    have := hc fun x hx => by
      rcases List.mem_append.1 hx with hx | hx
      · exact sL C hC b hb h1 x hx
      · exact sR C hC b hb h2 x hx
    simpa using this
  · rw [sat_cubeImplLit, Lit.holds_neg]
    intro hx
    have g1 := tL b hb fun x h => hx x (by simp [h])
    have g2 := tR b hb fun x h => hx x (by simp [h])
    cases h : olit.holds b with
    | false => rfl
    | true => have := ho h; omega
  · rcases mem_cubeImplLit hx with ⟨y, hy, e⟩ | h
    · rw [← e]
      rcases List.mem_append.1 hy with hy | hy
      · exact Or.inr (vL y hy)
      · exact Or.inr (vR y hy)
    · left; rw [h, Lit.var_neg]

end TotDb
end RustSat
