import Verif.Lemmas.Simp2
import Verif.Props.BindingsMini
/-
Queries of the solver with preprocessing, and the invariant of the wrapper.
-/
namespace RustSat
namespace SimpState
variable {S : Type} [SimpCore S] [LawfulSimpCore S]

/-- What holds after a query. -/
structure QueryOk (s t : SimpState S) (F : ClauseSet) (A : List Lit) (r : Int) : Prop where
  inv : t.Inv F
  frozen : ∀ v : Nat, t.frozen[v]? = some true ↔ s.frozen[v]? = some true
  elim : ∀ v : Nat, s.eliminated[v]? = some true → t.eliminated[v]? = some true
  notElim : ∀ v : Nat, s.frozen[v]? = some true ∨ (∃ l ∈ A, l.var = v) → s.eliminated[v]? ≠ some true →
    t.eliminated[v]? ≠ some true
  result : r = 0 ∨ r = 10 ∨ r = 20
  sat : r = 10 → t.modelSize = t.frozen.length ∧ (∀ l ∈ A, l.var < t.frozen.length) ∧ MakesTrue t.model (F ++ units A)
  unsat : r = 20 → (Unsatisfiable F ∧ t.conflict = s.conflict) ∨
    ((∀ l ∈ t.conflict, l.neg ∈ A) ∧ ∀ m, ClauseSet.sat m F → Clause.sat m t.conflict)

theorem solve_ok {s : SimpState S} {F : ClauseSet} (h : s.Inv F) {A : List Lit}
    (hA : ∀ l ∈ A, s.eliminated[l.var]? ≠ some true) : QueryOk s (s.solve A).2 F A (s.solve A).1 := by
  have g0 : (s.ensureVars A).Inv F := h.grow _
  have hknown := s.ensureVars_known A
  obtain ⟨f1, f2, f3, f4, f5⟩ := freeze_ok (s.ensureVars A) A hknown
  generalize hf : A.foldl freezeStep (s.ensureVars A, []) = f at f1 f2 f3 f4 f5
  have g1 : f.1.Inv F := f1.inv g0 f2
  obtain ⟨g2, k2⟩ := eliminate_ok g1
  have he1 : f.1.eliminated = (s.ensureVars A).eliminated := by rw [f1]
  have hc1 : f.1.conflict = s.conflict := by rw [f1]; rfl
  have hAfalse : ∀ l ∈ A, f.1.eliminate.eliminated[l.var]? = some false := by
    intro l hl
    rw [k2.notElim _ (f5 l hl), he1]
    exact lookup_false g0 (hknown l hl) fun ht => hA l hl ((s.grow_eliminated _ _).1.2 ht)
  have hlen2 : f.1.eliminate.frozen.length = (s.ensureVars A).frozen.length := by rw [k2.frozen, f2]
  have hext : ∀ v ∈ f.2, v < f.1.eliminate.frozen.length := fun v hv => by
    rw [hlen2]
    exact lookup_lt (f3 v hv)
  have e : s.solve A = ((f.1.eliminate.query A).1, (f.1.eliminate.query A).2.unfreeze f.2) := by
    unfold solve
    rw [hf]
  -- the query itself
  have hq : ∃ t, (f.1.eliminate.query A).2 = t ∧ t.Inv F ∧ t.frozen = f.1.eliminate.frozen ∧
      t.eliminated = f.1.eliminate.eliminated ∧
      ((f.1.eliminate.query A).1 = 0 ∨ (f.1.eliminate.query A).1 = 10 ∨ (f.1.eliminate.query A).1 = 20) ∧
      ((f.1.eliminate.query A).1 = 10 → t.modelSize = t.frozen.length ∧ MakesTrue t.model (F ++ units A)) ∧
      ((f.1.eliminate.query A).1 = 20 → (Unsatisfiable F ∧ t.conflict = s.conflict) ∨
        ((∀ l ∈ t.conflict, l.neg ∈ A) ∧ ∀ m, ClauseSet.sat m F → Clause.sat m t.conflict)) := by
    refine ⟨_, rfl, ?_⟩
    unfold query
    by_cases hr : SimpCore.refutes f.1.eliminate.core f.1.eliminate.clauses = true
    · rw [if_pos hr]
      refine ⟨g2, rfl, rfl, .inr (.inr rfl), nofun, fun _ => .inl ⟨?_, k2.conflict.trans hc1⟩⟩
      rintro ⟨m, hm⟩
      exact LawfulSimpCore.refutes _ _ hr ⟨m, g2.down m hm⟩
    · rw [if_neg hr]
      dsimp only
      cases hs : (SimpCore.search f.1.eliminate.core f.1.eliminate.clauses f.1.eliminate.eliminated A).1 with
      | sat p =>
        obtain ⟨p1, p2⟩ := LawfulSimpCore.sat _ _ _ _ p hs
        obtain ⟨p3, p4⟩ := makesTrue_append.1 p1
        refine ⟨⟨g2.len, g2.known, g2.free, g2.norm, g2.pivots, g2.down, g2.up⟩, rfl, rfl, .inr (.inl rfl),
          fun _ => ⟨rfl, makesTrue_append.2 ⟨g2.up p p3 p2, fun c hc => ?_⟩⟩, nofun⟩
        obtain ⟨l, hl, rfl⟩ := List.mem_map.1 hc
        obtain ⟨l', hl', ht⟩ := p4 _ hc
        rw [List.mem_singleton.1 hl'] at ht
        refine ⟨l, List.mem_cons_self, ?_⟩
        show Simp.extendModel f.1.eliminate.elimClauses p l.var = _
        rw [g2.same p (by rw [hAfalse l hl]; exact nofun), ht]
      | unsat c =>
        obtain ⟨p1, p2⟩ := LawfulSimpCore.unsat _ _ _ _ c hs
        exact ⟨⟨g2.len, g2.known, g2.free, g2.norm, g2.pivots, g2.down, g2.up⟩, rfl, rfl, .inr (.inr rfl), nofun,
          fun _ => .inr ⟨p1, fun m hm => p2 m (g2.down m hm)⟩⟩
      | unknown =>
        exact ⟨⟨g2.len, g2.known, g2.free, g2.norm, g2.pivots, g2.down, g2.up⟩, rfl, rfl, .inl rfl, nofun, nofun⟩
  obtain ⟨t, ht, q1, q2, q3, q4, q5, q6⟩ := hq
  rw [e, ht]
  obtain ⟨u1, u2, u3⟩ := unfreeze_ok f.2 t fun v hv => by rw [q2]; exact hext v hv
  have hu : (t.unfreeze f.2).Inv F := u1.inv q1 u2
  have hfz : ∀ v : Nat, (t.unfreeze f.2).frozen[v]? = (s.ensureVars A).frozen[v]? := by
    intro v
    rw [u3, q2, k2.frozen, f4]
    by_cases hv : v ∈ f.2
    · rw [if_pos hv, f3 v hv]
    · rw [if_neg hv, if_neg hv]
  have huel : (t.unfreeze f.2).eliminated = f.1.eliminate.eliminated := by rw [u1]; exact q3
  have hulen : (t.unfreeze f.2).frozen.length = (s.ensureVars A).frozen.length := by rw [u2, q2, hlen2]
  refine ⟨hu, fun v => ?_, fun v hv => ?_, fun v hv hn => ?_, q4, fun hr => ?_, fun hr => ?_⟩
  · rw [hfz]
    exact s.grow_frozen _ v
  · rw [huel]
    refine k2.elim v ?_
    rw [he1]
    exact (s.grow_eliminated _ v).1.1 hv
  · rw [huel]
    have hfr : f.1.frozen[v]? = some true := by
      rcases hv with hv | ⟨l, hl, rfl⟩
      · rw [f4]
        split
        · rfl
        · exact (s.grow_frozen _ v).2 hv
      · exact f5 l hl
    rw [k2.notElim v hfr, he1]
    exact fun h' => hn ((s.grow_eliminated _ v).1.2 h')
  · obtain ⟨h1, h2⟩ := q5 hr
    refine ⟨?_, fun l hl => by rw [hulen]; exact hknown l hl, ?_⟩
    · rw [u2, ← h1]
      show (t.unfreeze f.2).modelSize = _
      rw [u1]
    · have : (t.unfreeze f.2).model = t.model := by rw [u1]
      rw [this]
      exact h2
  · have : (t.unfreeze f.2).conflict = t.conflict := by rw [u1]
    rw [this]
    exact q6 hr

end SimpState

variable {S : Type} [SimpCore S] [LawfulSimpCore S]

omit [LawfulSimpCore S] in
/-- A model that the library holds gives values to all variables of the clauses. -/
theorem miniModel_of {s : SimpState S} {F G : ClauseSet} (h1 : s.Inv F) (h2 : s.modelSize = s.frozen.length)
    (h3 : MakesTrue s.model G) (h4 : ∀ c ∈ G, ∀ l ∈ c, l.var < s.frozen.length) : MiniModel s G := by
  refine ⟨s.model, s.modelSize, fun v => ?_, fun c hc l hl => by rw [h2]; exact h4 c hc l hl, fun m hm c hc => ?_⟩
  · show (if v < s.modelSize then _ else _) = _
    cases s.model v with
    | none => rfl
    | some b => cases b <;> rfl
  · obtain ⟨l, hl, ht⟩ := h3 c hc
    refine ⟨l, hl, ?_⟩
    have := hm l.var _ ht
    unfold Lit.holds
    rw [this]
    cases l.isNeg <;> rfl

/-- The invariant of the wrapper. -/
structure SimpInv (n : Mini (SimpState S)) (F : ClauseSet) (Z : Nat → Prop) : Prop where
  inv : n.handle.Inv F
  frozen : ∀ v : Nat, n.handle.frozen[v]? = some true ↔ Z v
  sat : n.state = .sat → MiniModel n.handle F
  unsat : n.state = .unsat false → Unsatisfiable F
  core : n.state = .unsat true → ∀ m, ClauseSet.sat m F → Clause.sat m n.handle.conflict

/-- What holds for the wrapper after a query. -/
structure SimpAfter (n n' : Mini (SimpState S)) (F : ClauseSet) (A : List Lit) (b : Bool) (r : SolverResult) : Prop where
  inv : n'.handle.Inv F
  frozen : ∀ v : Nat, n'.handle.frozen[v]? = some true ↔ n.handle.frozen[v]? = some true
  elim : ∀ v : Nat, n.handle.eliminated[v]? = some true → n'.handle.eliminated[v]? = some true
  notElim : ∀ v : Nat, n.handle.frozen[v]? = some true ∨ (∃ l ∈ A, l.var = v) → n.handle.eliminated[v]? ≠ some true →
    n'.handle.eliminated[v]? ≠ some true
  sat : r = .sat → n'.state = .sat ∧ MiniModel n'.handle (F ++ units A)
  unsat : r = .unsat → n'.state = .unsat b ∧ Unsatisfiable (F ++ units A) ∧
    (∀ m, ClauseSet.sat m F → Clause.sat m n'.handle.conflict) ∧
    (Unsatisfiable F ∨ ∀ l ∈ n'.handle.conflict, l.neg ∈ A)
  interrupted : r = .interrupted → n'.state = .input

theorem simp_after {n n' : Mini (SimpState S)} {F : ClauseSet} {A : List Lit} {b : Bool} {r : SolverResult}
    (h : n.handle.Inv F) (hA : ∀ l ∈ A, n.handle.eliminated[l.var]? ≠ some true)
    (e : n.record b (MiniLib.solve n.handle A) = (.ok r, n')) : SimpAfter n n' F A b r := by
  have q := SimpState.solve_ok h hA
  change n.record b (n.handle.solve A) = _ at e
  generalize n.handle.solve A = t at q e
  obtain ⟨x, t⟩ := t
  dsimp only at q
  unfold Mini.record at e
  dsimp only at e
  rcases q.result with hr | hr | hr
  · rw [if_pos hr] at e
    injection e with e1 e2
    injection e1 with e1
    subst e1 e2
    exact ⟨q.inv, q.frozen, q.elim, q.notElim, nofun, nofun, fun _ => rfl⟩
  · rw [if_neg (by omega), if_pos hr] at e
    injection e with e1 e2
    injection e1 with e1
    subst e1 e2
    obtain ⟨h1, h2, h3⟩ := q.sat hr
    refine ⟨q.inv, q.frozen, q.elim, q.notElim, fun _ => ⟨rfl, miniModel_of q.inv h1 h3 fun c hc l hl => ?_⟩, nofun, nofun⟩
    rcases List.mem_append.1 hc with hc | hc
    · exact q.inv.known c hc l hl
    · obtain ⟨a, ha, rfl⟩ := List.mem_map.1 hc
      rw [List.mem_singleton.1 hl]
      exact h2 a ha
  · rw [if_neg (by omega), if_neg (by omega), if_pos hr] at e
    injection e with e1 e2
    injection e1 with e1
    subst e1 e2
    refine ⟨q.inv, q.frozen, q.elim, q.notElim, nofun, fun _ => ⟨rfl, ?_⟩, nofun⟩
    rcases q.unsat hr with ⟨h1, h2⟩ | ⟨h1, h2⟩
    · exact ⟨fun ⟨m, hm⟩ => h1 ⟨m, fun c hc => hm c (List.mem_append_left _ hc)⟩, fun m hm => absurd ⟨m, hm⟩ h1, .inl h1⟩
    · refine ⟨?_, h2, .inr h1⟩
      rintro ⟨m, hsat⟩
      obtain ⟨l, hl, hlm⟩ := h2 m fun c hc => hsat c (List.mem_append_left _ hc)
      obtain ⟨l', hl', h'⟩ := hsat [l.neg] (List.mem_append_right _ (List.mem_map_of_mem (h1 l hl)))
      rw [List.mem_singleton.1 hl', Lit.holds_neg, hlm] at h'
      cases h'

theorem SimpAfter.toInv {n n' : Mini (SimpState S)} {F : ClauseSet} {A : List Lit} {b : Bool} {r : SolverResult}
    {Z : Nat → Prop} (h : SimpInv n F Z) (q : SimpAfter n n' F A b r) (hb : b = false → A = []) : SimpInv n' F Z := by
  refine ⟨q.inv, fun v => (q.frozen v).trans (h.frozen v), fun hs => ?_, fun hs => ?_, fun hs => ?_⟩
  · cases r with
    | sat =>
      obtain ⟨p, k, h1, h2, h3⟩ := (q.sat rfl).2
      exact ⟨p, k, h1, fun c hc => h2 c (List.mem_append_left _ hc), fun m hm c hc => h3 m hm c (List.mem_append_left _ hc)⟩
    | unsat => have := (q.unsat rfl).1; rw [hs] at this; cases this
    | interrupted => have := q.interrupted rfl; rw [hs] at this; cases this
  · cases r with
    | sat => have := (q.sat rfl).1; rw [hs] at this; cases this
    | unsat =>
      obtain ⟨h1, h2, _⟩ := q.unsat rfl
      rw [hs] at h1
      injection h1 with h1
      rw [hb h1.symm] at h2
      simpa [units] using h2
    | interrupted => have := q.interrupted rfl; rw [hs] at this; cases this
  · cases r with
    | sat => have := (q.sat rfl).1; rw [hs] at this; cases this
    | unsat => exact (q.unsat rfl).2.2.1
    | interrupted => have := q.interrupted rfl; rw [hs] at this; cases this

omit [LawfulSimpCore S] in
theorem checkAssumps_ok {n : Mini (SimpState S)} {A : List Lit} {u : Unit} (h : n.checkAssumps A = .ok u) :
    ∀ l ∈ A, n.varEliminated l.var = some false := by
  induction A with
  | nil => exact nofun
  | cons a A ih =>
    unfold Mini.checkAssumps at h
    cases hv : n.varEliminated a.var with
    | none => rw [hv] at h; cases h
    | some b =>
      rw [hv] at h
      cases b with
      | true => cases h
      | false =>
        intro l hl
        rcases List.mem_cons.1 hl with rfl | hl
        · exact hv
        · exact ih h l hl

omit [LawfulSimpCore S] in
theorem solveAssumpsSimp_ok {n n' : Mini (SimpState S)} {A : List Lit} {r : SolverResult}
    (e : n.solveAssumpsSimp A = (.ok r, n')) :
    (∀ l ∈ A, n.varEliminated l.var = some false) ∧ n.record true (MiniLib.solve n.handle A) = (.ok r, n') := by
  unfold Mini.solveAssumpsSimp at e
  cases hc : n.checkAssumps A with
  | err e' => rw [hc] at e; injection e with e _; cases e
  | panic => rw [hc] at e; injection e with e _; cases e
  | ok u =>
    rw [hc] at e
    dsimp only at e
    refine ⟨checkAssumps_ok hc, ?_⟩
    show n.solveAssumps A = _
    cases hs : n.solveAssumps A with
    | mk x y =>
      rw [hs] at e
      injection e with e1 e2
      dsimp only at e1 e2
      subst e2
      cases x with
      | ok a => injection e1 with e1; subst e1; rfl
      | err _ => cases e1
      | panic => cases e1

theorem SimpReach.inv {n : Mini (SimpState S)} {F : ClauseSet} {Z : Nat → Prop} (h : SimpReach n F Z) : SimpInv n F Z := by
  induction h with
  | new =>
    refine ⟨⟨rfl, nofun, nofun, nofun, nofun, fun _ _ => nofun, fun _ _ _ => nofun⟩, fun v => ?_, nofun, nofun, nofun⟩
    show ([] : List Bool)[v]? = some true ↔ False
    simp
  | @add n F Z c _ hc ih =>
    refine ⟨ih.inv.addClause hc, fun v => ?_, nofun, nofun, nofun⟩
    exact (n.handle.grow_frozen _ v).trans (ih.frozen v)
  | @reserve n F Z v _ ih =>
    exact ⟨ih.inv.grow _, fun w => (n.handle.grow_frozen _ w).trans (ih.frozen w), ih.sat, ih.unsat, ih.core⟩
  | @freeze n F Z v _ ih =>
    refine ⟨(ih.inv.grow _).setFrozen v true, fun w => ?_, ih.sat, ih.unsat, ih.core⟩
    show ((n.handle.grow (v + 1)).frozen.set v true)[w]? = some true ↔ _
    rw [SimpState.set_lookup (by rw [SimpState.grow_length]; omega)]
    by_cases hw : w = v
    · rw [if_pos hw]; simp [hw]
    · rw [if_neg hw, n.handle.grow_frozen]
      exact (ih.frozen w).trans ⟨.inr, fun h => h.resolve_left hw⟩
  | @melt n F Z v _ ih =>
    have hun : ¬ v < n.handle.frozen.length → ∀ w : Nat, (w ≠ v ∧ Z w ↔ Z w) := by
      intro hlt w
      refine ⟨And.right, fun hz => ⟨?_, hz⟩⟩
      rintro rfl
      exact hlt (SimpState.lookup_lt ((ih.frozen w).2 hz))
    unfold Mini.meltVar Mini.maxVarSimp
    by_cases hpos : 0 < n.handle.frozen.length
    · rw [if_pos hpos]
      dsimp only
      by_cases hk : n.handle.frozen.length - 1 < v
      · rw [if_pos hk]
        exact ⟨ih.inv, fun w => (ih.frozen w).trans (hun (by omega) w).symm, ih.sat, ih.unsat, ih.core⟩
      · rw [if_neg hk]
        refine ⟨ih.inv.setFrozen v false, fun w => ?_, ih.sat, ih.unsat, ih.core⟩
        show (n.handle.frozen.set v false)[w]? = some true ↔ _
        rw [SimpState.set_lookup (by omega)]
        by_cases hw : w = v
        · rw [if_pos hw]; simp [hw]
        · rw [if_neg hw]
          exact (ih.frozen w).trans ⟨fun h => ⟨hw, h⟩, And.right⟩
    · rw [if_neg hpos]
      exact ⟨ih.inv, fun w => (ih.frozen w).trans (hun (by omega) w).symm, ih.sat, ih.unsat, ih.core⟩
  | @solve n F Z r n' _ e ih =>
    rcases n.solve_cases with ⟨_, he⟩ | ⟨_, he⟩ | he
    · rw [he] at e; injection e with _ e; exact e ▸ ih
    · rw [he] at e; injection e with _ e; exact e ▸ ih
    · rw [he] at e; exact (simp_after (A := []) ih.inv (fun _ h => absurd h List.not_mem_nil) e).toInv ih fun _ => rfl
  | assumps _ e ih =>
    obtain ⟨h1, h2⟩ := solveAssumpsSimp_ok e
    exact (simp_after ih.inv (fun l hl => by
      have := h1 l hl
      unfold Mini.varEliminated at this
      rw [this]; exact nofun) h2).toInv ih nofun

end RustSat
