import Verif.Spec.Bindings
import Verif.Props.Solvers
/-
Lemmas about the wrappers of solver libraries.
-/
namespace RustSat

theorem Lit.cInt_eq (l : Lit) : l.cInt =
    if l.InRange then some (if l.isNeg then -((l.var : Int) + 1) else (l.var : Int) + 1) else none := by
  by_cases h : l.InRange
  · have e : l.toIpasir = .ok (if l.isNeg then -((l.var : Int) + 1) else (l.var : Int) + 1) := by
      unfold Lit.toIpasir
      exact if_pos h
    rw [if_pos h]
    exact congrArg Res.toOption e
  · have e : l.toIpasir = .panic := by
      unfold Lit.toIpasir
      exact if_neg h
    rw [if_neg h]
    exact congrArg Res.toOption e

theorem Lit.cInt_of_inRange {l : Lit} (h : l.InRange) : ∃ z, l.cInt = some z := by
  rw [Lit.cInt_eq, if_pos h]
  exact ⟨_, rfl⟩

theorem Lit.cInt_some {l : Lit} {z : Int} (h : l.cInt = some z) :
    l.InRange ∧ z = if l.isNeg then -((l.var : Int) + 1) else (l.var : Int) + 1 := by
  rw [Lit.cInt_eq] at h
  by_cases hr : l.InRange
  · rw [if_pos hr] at h
    injection h with h
    exact ⟨hr, h.symm⟩
  · rw [if_neg hr] at h
    cases h

theorem Lit.cInt_cases (l : Lit) : (∃ z, l.cInt = some z) ∨ (l.cInt = none ∧ ¬ l.InRange) := by
  by_cases h : l.InRange
  · exact .inl (Lit.cInt_of_inRange h)
  · exact .inr ⟨by rw [Lit.cInt_eq, if_neg h], h⟩

theorem ReportsModel.mono {val : Int → Int} {P : Prop} {F G : ClauseSet} (h : ReportsModel val P F) (hs : ∀ c ∈ G, c ∈ F) :
    ReportsModel val P G := by
  obtain ⟨p, h1, h2, h3⟩ := h
  exact ⟨p, h1, h2, fun m hm c hc => h3 m hm c (hs c hc)⟩

/-- From values as integers to values of literals. -/
theorem ReportsModel.gives {val : Int → Int} {P : Prop} {F : ClauseSet} (h : ReportsModel val P F)
    (lv : Lit → Option TernaryVal) (hnone : ∀ l : Lit, ¬ l.InRange → lv l = none)
    (hval : ∀ (l : Lit) z, l.cInt = some z → z ≠ 0 →
      (lv l = some .true ↔ val z = z) ∧ (lv l = some .false ↔ val z = -z)) : GivesModel lv F := by
  obtain ⟨p, h1, h2, h3⟩ := h
  have hz : ∀ (l : Lit) z, l.cInt = some z → z ≠ 0 := by
    intro l z h
    have := (Lit.cInt_some h).2
    split at this <;> omega
  refine ⟨⟨fun v => (p v).getD false, fun l => ?_⟩, fun b hb => h3 b fun v x hv => ?_⟩
  · rcases Lit.cInt_cases l with ⟨z, e⟩ | ⟨_, hr⟩
    · have hz0 := hz l z e
      have hv := hval l z e hz0
      rw [hv.1, hv.2]
      have h2 := h2 l z e
      cases hp : p l.var with
      | some x =>
        have h2 := h2.1 x hp
        unfold Lit.holds
        cases hn : l.isNeg <;> cases x <;> simp [hn, hp] at h2 ⊢ <;> omega
      | none =>
        have h2 := h2.2 hp
        have he := (Lit.cInt_some e).2
        unfold Lit.holds
        cases hn : l.isNeg <;> simp [hn, hp] at he ⊢ <;> omega
    · rw [hnone l hr]
      exact ⟨nofun, nofun⟩
  · obtain ⟨z, e⟩ := Lit.cInt_of_inRange (h1 v x hv)
    have hb := hb (Lit.pos v)
    have hv' := hval _ z e (hz _ z e)
    have h2 := (h2 _ z e).1 x (by simpa using hv)
    cases x with
    | true =>
      have := hb.1 (hv'.1.2 (by simpa using h2))
      simpa using this
    | false =>
      have := hb.2 (hv'.2.2 (by simpa using h2))
      simpa using this

section
variable {H : Type} [Ipasir H]

theorem Native.litVal_some (n : Native H) (l : Lit) : (n.litVal l).toOption = some .dontCare ∨
    (n.litVal l).toOption = some .true ∨ (n.litVal l).toOption = some .false ∨ (n.litVal l).toOption = none := by
  cases (n.litVal l).toOption with
  | none => simp
  | some t => cases t <;> simp

theorem Native.litVal_gives {n : Native H} {P : Prop} {F : ClauseSet} (hs : n.state = .sat)
    (h : ReportsModel (Ipasir.val n.handle) P F) : GivesModel (fun l => (n.litVal l).toOption) F := by
  refine h.gives _ (fun l hl => ?_) fun l z e hz => ?_
  · rcases Lit.cInt_cases l with ⟨z, e⟩ | ⟨e, _⟩
    · exact absurd (Lit.cInt_some e).1 hl
    · simp only [Native.litVal, if_pos hs, e]
      rfl
  · simp only [Native.litVal, if_pos hs, e]
    generalize Ipasir.val n.handle z = w
    by_cases h0 : w = 0
    · rw [if_pos h0]; simp [Res.toOption]; omega
    · rw [if_neg h0]
      by_cases h1 : w = z
      · rw [if_pos h1]; simp [Res.toOption]; omega
      · rw [if_neg h1]
        by_cases h2 : w = -z
        · rw [if_pos h2]; simp [Res.toOption]; omega
        · rw [if_neg h2]; simp [Res.toOption]; omega

/-- The effect of passing literals. -/
theorem passLits_view {H : Type} (view : H → LibView) (f : H → Int → H) (g : LibView → List Lit → LibView)
    (hg : ∀ w, g w [] = w) (hc : ∀ w l ls, g (g w [l]) ls = g w (l :: ls))
    (hf : ∀ h l z, Lit.cInt l = some z → view (f h z) = g (view h) [l]) :
    ∀ (ls : List Lit) (h h' : H), passLits f h ls = some h' → view h' = g (view h) ls := by
  intro ls
  induction ls with
  | nil => intro h h' e; simp only [passLits, Option.some.injEq] at e; rw [← e, hg]
  | cons l ls ih =>
    intro h h' e
    rcases Lit.cInt_cases l with ⟨z, ez⟩ | ⟨ez, _⟩
    · simp only [passLits, ez, Option.bind_some] at e
      rw [ih _ _ e, hf _ _ _ ez, hc]
    · simp only [passLits, ez, Option.bind_none] at e
      cases e

theorem passLits_total {H : Type} (f : H → Int → H) : ∀ (ls : List Lit) (h : H), (∀ l ∈ ls, l.InRange) →
    ∃ h', passLits f h ls = some h' := by
  intro ls
  induction ls with
  | nil => exact fun h _ => ⟨h, rfl⟩
  | cons l ls ih =>
    intro h hr
    obtain ⟨z, ez⟩ := Lit.cInt_of_inRange (hr l List.mem_cons_self)
    simp only [passLits, ez, Option.bind_some]
    exact ih _ fun l hl => hr l (List.mem_cons_of_mem _ hl)

theorem passLits_inRange {H : Type} (f : H → Int → H) : ∀ (ls : List Lit) (h h' : H), passLits f h ls = some h' →
    ∀ l ∈ ls, l.InRange := by
  intro ls
  induction ls with
  | nil => intro h h' _ l hl; cases hl
  | cons l ls ih =>
    intro h h' e l' hl
    rcases Lit.cInt_cases l with ⟨z, ez⟩ | ⟨ez, _⟩
    · simp only [passLits, ez, Option.bind_some] at e
      rcases List.mem_cons.1 hl with rfl | hl
      · exact (Lit.cInt_some ez).1
      · exact ih _ _ e l' hl
    · simp only [passLits, ez, Option.bind_none] at e
      cases e

variable [LawfulIpasir H]

theorem view_addLits {ls : List Lit} {h h' : H} (e : passLits Ipasir.add h ls = some h') :
    LawfulIpasir.view h' = { LawfulIpasir.view h with pending := (LawfulIpasir.view h).pending ++ ls } :=
  passLits_view LawfulIpasir.view _ (fun w ls => { w with pending := w.pending ++ ls }) (by simp) (by simp)
    (fun h l z e => LawfulIpasir.addLit h l z e) ls h h' e

theorem view_assumeLits {ls : List Lit} {h h' : H} (e : passLits Ipasir.assume h ls = some h') :
    LawfulIpasir.view h' = { LawfulIpasir.view h with assumps := (LawfulIpasir.view h).assumps ++ ls } :=
  passLits_view LawfulIpasir.view _ (fun w ls => { w with assumps := w.assumps ++ ls }) (by simp) (by simp)
    (fun h l z e => LawfulIpasir.assume h l z e) ls h h' e

/-- The core consists of the negations of the failed assumptions. -/
theorem coreAssumps_eq {h : H} (h20 : (Ipasir.solve h).1 = 20) : ∀ A : List Lit,
    (∀ a ∈ A, a ∈ (LawfulIpasir.view h).assumps) → (∀ a ∈ A, a.InRange) →
    Native.coreAssumps (Ipasir.solve h).2 A =
      .ok ((A.filter fun a => a ∈ LawfulIpasir.core (Ipasir.solve h).2).map Lit.neg) := by
  intro A
  induction A with
  | nil => intro _ _; rfl
  | cons a A ih =>
    intro hA hr
    obtain ⟨z, ez⟩ := Lit.cInt_of_inRange (hr a List.mem_cons_self)
    have ih := ih (fun a ha => hA a (List.mem_cons_of_mem _ ha)) fun a ha => hr a (List.mem_cons_of_mem _ ha)
    have hf := LawfulIpasir.failed h h20 a (hA a List.mem_cons_self) z ez
    show Native.coreStep _ a a.cInt (Native.coreAssumps _ A) = _
    rw [ez, ih]
    show (if Ipasir.failed _ z = 0 then _ else if Ipasir.failed _ z = 1 then _ else _) = _
    rw [hf]
    by_cases hc : a ∈ LawfulIpasir.core (Ipasir.solve h).2
    · simp [hc]
    · simp [hc]

/-- What holds for the wrapper after a query. -/
structure QueryOk (F : ClauseSet) (t : Option Clause) (A : List Lit) (r : SolverResult) (n' : Native H) : Prop where
  view : LawfulIpasir.view n'.handle = { clauses := F }
  sat : r = .sat → n'.state = .sat ∧
    ReportsModel (Ipasir.val n'.handle) (LawfulIpasir.minusOne H) (F ++ t.toList ++ units A)
  unsat : r = .unsat → ∃ core, n'.state = .unsat core ∧ (∀ l ∈ core, l.neg ∈ A) ∧
    ∀ m, ClauseSet.sat m (F ++ (if LawfulIpasir.coreTmp n'.handle then t.toList else [])) → Clause.sat m core
  interrupted : r = .interrupted → n'.state = .input

theorem query_ok {n n' : Native H} {h : H} {F : ClauseSet} {t : Option Clause} {A : List Lit} {r : SolverResult}
    (hv : LawfulIpasir.view h = { clauses := F, tmp := t, assumps := A }) {core : H → Res BindErr (List Lit)}
    (hc : (Ipasir.solve h).1 = 20 → core (Ipasir.solve h).2 =
      .ok ((A.filter fun a => a ∈ LawfulIpasir.core (Ipasir.solve h).2).map Lit.neg))
    (e : n.record core (Ipasir.solve h) = (.ok r, n')) : QueryOk F t A r n' := by
  have hview := LawfulIpasir.solveView h
  rw [hv] at hview
  unfold Native.record at e
  by_cases h0 : (Ipasir.solve h).1 = 0
  · rw [if_pos h0] at e
    injection e with e1 e2
    injection e1 with e1
    subst e1 e2
    exact ⟨hview, nofun, nofun, fun _ => rfl⟩
  rw [if_neg h0] at e
  by_cases h10 : (Ipasir.solve h).1 = 10
  · rw [if_pos h10] at e
    injection e with e1 e2
    injection e1 with e1
    subst e1 e2
    refine ⟨hview, fun _ => ⟨rfl, ?_⟩, nofun, nofun⟩
    have := LawfulIpasir.solveSat h h10
    rw [hv] at this
    exact this
  rw [if_neg h10] at e
  by_cases h20 : (Ipasir.solve h).1 = 20
  · rw [if_pos h20, hc h20] at e
    injection e with e1 e2
    injection e1 with e1
    subst e1 e2
    refine ⟨hview, nofun, fun _ => ⟨_, rfl, ?_, ?_⟩, nofun⟩
    · intro l hl
      obtain ⟨a, ha, rfl⟩ := List.mem_map.1 hl
      rw [Lit.neg_neg]
      exact (List.mem_filter.1 ha).1
    · intro m hm
      obtain ⟨hsub, hun⟩ := LawfulIpasir.solveUnsat h h20
      rw [hv] at hun hsub
      obtain ⟨l, hl, hlm⟩ := core_sat hun m hm
      obtain ⟨a, ha, rfl⟩ := List.mem_map.1 hl
      exact ⟨_, List.mem_map_of_mem (List.mem_filter.2 ⟨hsub a ha, by simpa using ha⟩), hlm⟩
  · rw [if_neg h20] at e
    injection e with e1 e2
    cases e1

/-- A query does not fail. -/
theorem query_total (n : Native H) (h : H) {core : H → Res BindErr (List Lit)}
    (hc : (Ipasir.solve h).1 = 20 → ∃ c, core (Ipasir.solve h).2 = .ok c) :
    ∃ r n', n.record core (Ipasir.solve h) = (.ok r, n') := by
  unfold Native.record
  rcases LawfulIpasir.solveResult h with h0 | h0 | h0
  · rw [if_pos h0]; exact ⟨_, _, rfl⟩
  · rw [if_neg (by omega), if_pos h0]; exact ⟨_, _, rfl⟩
  · rw [if_neg (by omega), if_neg (by omega), if_pos h0]
    obtain ⟨c, hc⟩ := hc h0
    rw [hc]; exact ⟨_, _, rfl⟩

/-- The invariant of the wrapper. -/
structure NInv (n : Native H) (F : ClauseSet) (t u : Option Clause) : Prop where
  view : LawfulIpasir.view n.handle = { clauses := F, tmp := t }
  sat : n.state = .sat → t = none ∧ ReportsModel (Ipasir.val n.handle) (LawfulIpasir.minusOne H) F
  unsat : ∀ core, n.state = .unsat core → t = none ∧ ∀ m, ClauseSet.sat m (F ++ u.toList) → Clause.sat m core

theorem QueryOk.inv {F : ClauseSet} {t : Option Clause} {A : List Lit} {r : SolverResult} {n' : Native H}
    (h : QueryOk F t A r n') : NInv n' F none t := by
  refine ⟨h.view, fun hs => ⟨rfl, ?_⟩, fun core hs => ⟨rfl, ?_⟩⟩
  · cases r with
    | sat => exact (h.sat rfl).2.mono fun c hc => by simp [hc]
    | unsat => obtain ⟨c, hc, _⟩ := h.unsat rfl; rw [hs] at hc; cases hc
    | interrupted => have := h.interrupted rfl; rw [hs] at this; cases this
  · cases r with
    | sat => have := (h.sat rfl).1; rw [hs] at this; cases this
    | unsat =>
      obtain ⟨c, hc, _, hm⟩ := h.unsat rfl
      rw [hs] at hc
      injection hc with hc
      subst hc
      intro m hsat
      refine hm m fun c hc => hsat c ?_
      rcases List.mem_append.1 hc with hc | hc
      · exact List.mem_append_left _ hc
      · by_cases ht : LawfulIpasir.coreTmp n'.handle = true
        · rw [if_pos ht] at hc; exact List.mem_append_right _ hc
        · rw [if_neg ht] at hc; cases hc
    | interrupted => have := h.interrupted rfl; rw [hs] at this; cases this

theorem NInv.new : NInv (Native.new : Native H) [] none none := ⟨LawfulIpasir.init, nofun, nofun⟩

theorem NInv.add {n n' : Native H} {F : ClauseSet} {t u : Option Clause} {c : Clause} (h : NInv n F t u)
    (e : n.addClause c = some n') : NInv n' (F ++ [c]) t u := by
  unfold Native.addClause at e
  cases hp : passLits Ipasir.add n.handle c with
  | none => rw [hp] at e; cases e
  | some h' =>
    rw [hp] at e
    injection e with e
    subst e
    refine ⟨?_, nofun, nofun⟩
    show LawfulIpasir.view (Ipasir.add h' 0) = _
    rw [LawfulIpasir.addEnd, view_addLits hp, h.view]
    simp

theorem NInv.solve_query {n n' : Native H} {F : ClauseSet} {t u : Option Clause} {r : SolverResult} (h : NInv n F t u)
    (e : n.record (fun _ => .ok []) (Ipasir.solve n.handle) = (.ok r, n')) : QueryOk F t [] r n' :=
  query_ok (by rw [h.view]) (fun _ => rfl) e

theorem NInv.assumps {n n' : Native H} {F : ClauseSet} {t u : Option Clause} {A : List Lit} {r : SolverResult}
    (h : NInv n F t u) (e : n.solveAssumps A = (.ok r, n')) : QueryOk F t A r n' := by
  unfold Native.solveAssumps at e
  cases hp : passLits Ipasir.assume n.handle A with
  | none => rw [hp] at e; injection e with e _; cases e
  | some h' =>
    rw [hp] at e
    have hv := view_assumeLits hp
    rw [h.view] at hv
    refine query_ok (h := h') (by rw [hv]; simp) (fun h20 => ?_) e
    exact coreAssumps_eq h20 A (by rw [hv]; simp) (passLits_inRange _ _ _ _ hp)

omit [LawfulIpasir H] in
/-- `solve` either returns what it knows already or asks the library. -/
theorem Native.solve_cases (n : Native H) : (n.state = .sat ∧ n.solve = (.ok .sat, n)) ∨
    (n.state = .unsat [] ∧ n.solve = (.ok .unsat, n)) ∨
    (n.state ≠ .sat ∧ n.state ≠ .unsat [] ∧ n.solve = n.record (fun _ => .ok []) (Ipasir.solve n.handle)) := by
  unfold Native.solve
  cases hs : n.state with
  | sat => simp
  | unsat c => cases c <;> simp
  | input => simp
  | configuring => simp

theorem Unsatisfiable.of_core {F : ClauseSet} (h : ∀ m, ClauseSet.sat m F → Clause.sat m []) : Unsatisfiable F := by
  rintro ⟨m, hm⟩
  obtain ⟨l, hl, _⟩ := h m hm
  cases hl

end
end RustSat
