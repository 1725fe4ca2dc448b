import Verif.Props.Bindings
import Verif.Props.Types
import Verif.Lemmas.BindingsToy
/-
C70: temporary clauses, simplification and reserving variables in the wrapper of CaDiCaL, and examples for C69.
-/
namespace RustSat

theorem eq_some_getD {α : Type} {o : Option α} {d : α} (h : o.isSome = true) : o = some (o.getD d) := by
  cases o with
  | none => cases h
  | some a => rfl

theorem eq_pair_of_fst {α β : Type} {p : α × β} {a : α} (h : p.1 = a) : p = (a, p.2) := by subst h; rfl

theorem NState.ne_unsat {s : NState} (h : s.toExternal ≠ .unsat) : ∀ core, s ≠ .unsat core := by
  rintro core rfl
  exact h rfl

/-! ### C69: the hypotheses can be met -/

/-- Clauses are added, there are a satisfiable query, an unsatisfiable query under assumptions with a core, and a further
clause after that. -/
example : ∃ (n1 n2 n3 n4 n5 n6 : Native ToyLib), IpasirReach n6 [[Lit.pos 0], [Lit.pos 0, Lit.negOf 1], [Lit.pos 4]] ∧
    Native.new.addClause [Lit.pos 0] = some n1 ∧ n1.addClause [Lit.pos 0, Lit.negOf 1] = some n2 ∧
    n2.solve = (.ok .sat, n3) ∧ (n3.litVal (Lit.negOf 0)) = .ok .false ∧ (n3.litVal (Lit.pos 7)) = .ok .dontCare ∧
    n3.solveAssumps [Lit.negOf 0] = (.ok .unsat, n4) ∧ n4.core = .ok [Lit.pos 0] ∧
    n4.solve = (.ok .sat, n5) ∧ n5.addClause [Lit.pos 4] = some n6 ∧ n6.stats.nClauses = 3 ∧ n6.stats.maxVar = some 4 ∧
    n6.stats.nSat = 2 := by
  refine ⟨_, _, _, _, _, _, ((((((IpasirReach.new (H := ToyLib)).add
    (c := [Lit.pos 0]) (eq_some_getD (d := Native.new) (by decide))).add (c := [Lit.pos 0, Lit.negOf 1])
    (eq_some_getD (d := Native.new) (by decide))).solve (r := .sat) (eq_pair_of_fst (by decide))).assumps
    (A := [Lit.negOf 0]) (r := .unsat) (eq_pair_of_fst (by decide))).solve (r := .sat) (eq_pair_of_fst (by decide))).add
    (c := [Lit.pos 4]) (eq_some_getD (d := Native.new) (by decide)),
    (eq_some_getD (d := Native.new) (by decide)), (eq_some_getD (d := Native.new) (by decide)), (eq_pair_of_fst (by decide)), (by decide), (by decide), (eq_pair_of_fst (by decide)), (by decide), (eq_pair_of_fst (by decide)),
    (eq_some_getD (d := Native.new) (by decide)), (by decide), (by decide), (by decide)⟩

section
variable {H : Type} [Cadical H] [LawfulCadical H]

theorem view_constrainLits {ls : List Lit} {h h' : H} (e : passLits Cadical.constrain h ls = some h') :
    LawfulIpasir.view h' = { LawfulIpasir.view h with tmpPending := (LawfulIpasir.view h).tmpPending ++ ls } :=
  passLits_view LawfulIpasir.view _ (fun w ls => { w with tmpPending := w.tmpPending ++ ls }) (by simp) (by simp)
    (fun h l z e => LawfulCadical.constrainLit h l z e) ls h h' e

omit [LawfulCadical H] in
theorem Native.cadicalVal_gives {n : Native H} {P : Prop} {F : ClauseSet} (hs : n.state = .sat)
    (h : ReportsModel (Ipasir.val n.handle) P F) : GivesModel (fun l => (n.cadicalVal l).toOption) F := by
  refine h.gives _ (fun l hl => ?_) fun l z e hz => ?_
  · rcases Lit.cInt_cases l with ⟨z, e⟩ | ⟨e, _⟩
    · exact absurd (Lit.cInt_some e).1 hl
    · simp only [Native.cadicalVal, if_pos hs, e]
      rfl
  · simp only [Native.cadicalVal, if_pos hs, e]
    generalize Ipasir.val n.handle z = w
    by_cases h0 : w = 0
    · rw [if_pos h0]; simp [Res.toOption]; omega
    · rw [if_neg h0]
      by_cases h1 : w = z
      · rw [if_pos h1]; simp [Res.toOption]; omega
      · rw [if_neg h1]
        by_cases h2 : w = -z
        · rw [if_pos h2]; simp [Res.toOption]; omega
        · rw [if_neg h2]
          by_cases h3 : w = -1
          · rw [if_pos h3]; simp [Res.toOption]; omega
          · rw [if_neg h3]; simp [Res.toOption]; omega

/-- What holds for the wrapper after simplification. -/
structure SimplifyOk (F : ClauseSet) (t : Option Clause) (A : List Lit) (r : SolverResult) (n' : Native H) : Prop where
  view : LawfulIpasir.view n'.handle = { clauses := F }
  sat : r = .sat → n'.state = .sat ∧
    ReportsModel (Ipasir.val n'.handle) (LawfulIpasir.minusOne H) (F ++ t.toList ++ units A)
  unsat : r = .unsat → n'.state = .unsat [] ∧ Unsatisfiable (F ++ t.toList ++ units A)
  interrupted : r = .interrupted → n'.state = .input

theorem simplify_ok {n n' : Native H} {h : H} {k : Nat} {F : ClauseSet} {t : Option Clause} {A : List Lit}
    {r : SolverResult} (hv : LawfulIpasir.view h = { clauses := F, tmp := t, assumps := A })
    (e : n.recordSimplify (Cadical.simplify h k) = (.ok r, n')) : SimplifyOk F t A r n' := by
  have hview := LawfulCadical.simplifyView h k
  rw [hv] at hview
  unfold Native.recordSimplify at e
  by_cases h0 : (Cadical.simplify h k).1 = 0
  · rw [if_pos h0] at e
    injection e with e1 e2
    injection e1 with e1
    subst e1 e2
    exact ⟨hview, nofun, nofun, fun _ => rfl⟩
  rw [if_neg h0] at e
  by_cases h10 : (Cadical.simplify h k).1 = 10
  · rw [if_pos h10] at e
    injection e with e1 e2
    injection e1 with e1
    subst e1 e2
    refine ⟨hview, fun _ => ⟨rfl, ?_⟩, nofun, nofun⟩
    have := LawfulCadical.simplifySat h k h10
    rw [hv] at this
    exact this
  rw [if_neg h10] at e
  by_cases h20 : (Cadical.simplify h k).1 = 20
  · rw [if_pos h20] at e
    injection e with e1 e2
    injection e1 with e1
    subst e1 e2
    refine ⟨hview, nofun, fun _ => ⟨rfl, ?_⟩, nofun⟩
    have := LawfulCadical.simplifyUnsat h k h20
    rw [hv] at this
    exact this
  · rw [if_neg h20] at e
    injection e with e1 e2
    cases e1

theorem SimplifyOk.inv {F : ClauseSet} {t : Option Clause} {A : List Lit} {r : SolverResult} {n' : Native H}
    (h : SimplifyOk F t A r n') (hA : r = .unsat → A = []) : NInv n' F none t := by
  refine ⟨h.view, fun hs => ⟨rfl, ?_⟩, fun core hs => ⟨rfl, ?_⟩⟩
  · cases r with
    | sat => exact (h.sat rfl).2.mono fun c hc => by simp [hc]
    | unsat => have := (h.unsat rfl).1; rw [hs] at this; cases this
    | interrupted => have := h.interrupted rfl; rw [hs] at this; cases this
  · cases r with
    | sat => have := (h.sat rfl).1; rw [hs] at this; cases this
    | unsat =>
      have hu := (h.unsat rfl).2
      rw [hA rfl] at hu
      exact fun m hm => absurd ⟨m, by simpa [units] using hm⟩ hu
    | interrupted => have := h.interrupted rfl; rw [hs] at this; cases this

omit [LawfulCadical H] in
/-- `simplify` either returns what it knows already or asks the library. -/
theorem Native.simplify_cases (n : Native H) (k : Nat) : (n.state = .sat ∧ n.simplify k = (.ok .sat, n)) ∨
    (∃ core, n.state = .unsat core ∧ n.simplify k = (.ok .unsat, n)) ∨
    (n.state ≠ .sat ∧ (∀ core, n.state ≠ .unsat core) ∧ n.simplify k =
      if (k : Int) ≤ i32Max then n.recordSimplify (Cadical.simplify n.handle k) else (.err .convert, n)) := by
  unfold Native.simplify
  cases hs : n.state with
  | sat => simp
  | unsat c => simp
  | input => simp
  | configuring => simp

omit [LawfulCadical H] in
theorem Native.simplifyAssumps_eq {n : Native H} (h1 : n.state ≠ .sat) (h2 : ∀ core, n.state ≠ .unsat core) (A : List Lit)
    (k : Nat) : n.simplifyAssumps A k =
      if (k : Int) ≤ i32Max then
        match passLits Ipasir.assume n.handle A with
        | none => (.panic, n)
        | some h => n.recordSimplify (Cadical.simplify h k)
      else (.err .convert, n) := by
  unfold Native.simplifyAssumps
  cases hs : n.state with
  | sat => exact absurd hs h1
  | unsat c => exact absurd hs (h2 c)
  | input => rfl
  | configuring => rfl

theorem NInv.simplify {n n' : Native H} {F : ClauseSet} {t u : Option Clause} {k : Nat} {r : SolverResult}
    (h : NInv n F t u) (e : (if (k : Int) ≤ i32Max then n.recordSimplify (Cadical.simplify n.handle k)
      else (.err .convert, n)) = (.ok r, n')) : SimplifyOk F t [] r n' := by
  by_cases hk : (k : Int) ≤ i32Max
  · rw [if_pos hk] at e
    exact simplify_ok (by rw [h.view]) e
  · rw [if_neg hk] at e
    injection e with e _
    cases e

theorem NInv.simplifyAssumps {n n' : Native H} {F : ClauseSet} {t u : Option Clause} {A : List Lit} {k : Nat}
    {r : SolverResult} (h : NInv n F t u) (h1 : n.state ≠ .sat) (h2 : ∀ core, n.state ≠ .unsat core)
    (e : n.simplifyAssumps A k = (.ok r, n')) : SimplifyOk F t A r n' := by
  rw [Native.simplifyAssumps_eq h1 h2] at e
  by_cases hk : (k : Int) ≤ i32Max
  · rw [if_pos hk] at e
    cases hp : passLits Ipasir.assume n.handle A with
    | none => rw [hp] at e; injection e with e _; cases e
    | some h' =>
      rw [hp] at e
      have hv := view_assumeLits hp
      rw [h.view] at hv
      exact simplify_ok (h := h') (by rw [hv]; simp) e
  · rw [if_neg hk] at e
    injection e with e _
    cases e

omit [Cadical H] [LawfulCadical H] in
theorem Lit.fromIpasir_cInt {l : Lit} {z : Int} (h : l.cInt = some z) : Lit.fromIpasir z = .ok l := by
  obtain ⟨y, h1, _, _, _, _, _, h2⟩ := C01_lit_ipasir_roundtrip l (Lit.cInt_some h).1
  have h' : (l.toIpasir).toOption = some z := h
  rw [h1] at h'
  rw [← Option.some.inj h']
  exact h2

omit [Cadical H] [LawfulCadical H] in
theorem collectLits_some {zs : List Int} (h : ∀ z ∈ zs, ∃ l, Lit.cInt l = some z) :
    ∃ ls, Native.collectLits zs = some ls ∧ ls.map Lit.cInt = zs.map some := by
  induction zs with
  | nil => exact ⟨[], rfl, rfl⟩
  | cons z zs ih =>
    obtain ⟨ls, e1, e2⟩ := ih fun z hz => h z (List.mem_cons_of_mem _ hz)
    obtain ⟨l, hl⟩ := h z List.mem_cons_self
    refine ⟨l :: ls, ?_, by simp [hl, e2]⟩
    unfold Native.collectLits
    rw [Lit.fromIpasir_cInt hl, e1]
    rfl

/-- What holds for the wrapper after propagation. -/
structure PropagateOk (F : ClauseSet) (t : Option Clause) (A : List Lit) (r : PropagateResult) (n' : Native H) : Prop where
  view : LawfulIpasir.view n'.handle = { clauses := F }
  state : n'.state = .input ∨ n'.state = .sat
  sat : n'.state = .sat → r.conflict = false ∧
    ReportsModel (Ipasir.val n'.handle) (LawfulIpasir.minusOne H) (F ++ t.toList ++ units A)
  conflict : r.conflict = true → n'.state = .input ∧ r.propagated = [] ∧ Unsatisfiable (F ++ t.toList ++ units A)
  implied : t = none → ∀ l ∈ r.propagated, Implies (F ++ units A) l

theorem NInv.propagate {n : Native H} {F : ClauseSet} {t u : Option Clause} {A : List Lit} (h : NInv n F t u)
    (hA : ∀ l ∈ A, l.InRange) : ∃ r n', n.propagate A = (.ok r, n') ∧ PropagateOk F t A r n' := by
  obtain ⟨h', hp⟩ := passLits_total Ipasir.assume A n.handle hA
  have hv := view_assumeLits hp
  rw [h.view] at hv
  have hview := LawfulCadical.propagateView h'
  rw [hv] at hview
  unfold Native.propagate
  rw [hp]
  dsimp only
  have hf : (LawfulIpasir.view h').formula = F ++ t.toList ++ units A := by rw [hv]; simp [LibView.formula]
  have hi : ∀ s, (Cadical.propagate h').1 ≠ 20 → ∃ ls, n.reportImplied s (Cadical.propagate h').2 =
      (.ok ⟨ls, false⟩, ⟨(Cadical.propagate h').2, s, n.stats⟩) ∧ (t = none → ∀ l ∈ ls, Implies (F ++ units A) l) := by
    intro s h20
    have hl := LawfulCadical.implied h' h20
    obtain ⟨ls, e1, e2⟩ := collectLits_some fun z hz => (hl z hz).imp fun _ h => h.1
    refine ⟨ls, by unfold Native.reportImplied; rw [e1], fun ht l hlm => ?_⟩
    have hm : l.cInt ∈ ls.map Lit.cInt := List.mem_map_of_mem hlm
    rw [e2] at hm
    obtain ⟨z, hz, ez⟩ := List.mem_map.1 hm
    obtain ⟨k, ek, hk⟩ := hl z hz
    have hkl : k = l := by
      have a := Lit.fromIpasir_cInt ek
      rw [Lit.fromIpasir_cInt ez.symm] at a
      exact (Res.ok.inj a).symm
    subst hkl
    have := hk (by rw [hv]; exact ht)
    rw [hf, ht] at this
    simpa using this
  rcases LawfulCadical.propagateResult h' with h0 | h0 | h0
  · rw [if_pos h0]
    obtain ⟨ls, e, hls⟩ := hi .input (by omega)
    exact ⟨_, _, e, hview, .inl rfl, nofun, nofun, hls⟩
  · rw [if_neg (by omega), if_pos h0]
    obtain ⟨ls, e, hls⟩ := hi .sat (by omega)
    have := LawfulCadical.propagateSat h' h0
    rw [hf] at this
    exact ⟨_, _, e, hview, .inr rfl, fun _ => ⟨rfl, this⟩, nofun, hls⟩
  · rw [if_neg (by omega), if_neg (by omega), if_pos h0]
    have := LawfulCadical.propagateUnsat h' h0
    rw [hf] at this
    exact ⟨_, _, rfl, hview, .inl rfl, nofun, fun _ => ⟨rfl, rfl, this⟩, fun _ => nofun⟩

theorem NInv.propagate_ok {n n' : Native H} {F : ClauseSet} {t u : Option Clause} {A : List Lit} {r : PropagateResult}
    (h : NInv n F t u) (e : n.propagate A = (.ok r, n')) : PropagateOk F t A r n' := by
  have hA : ∀ l ∈ A, l.InRange := by
    unfold Native.propagate at e
    cases hp : passLits Ipasir.assume n.handle A with
    | none => rw [hp] at e; injection e with e _; cases e
    | some h' => exact passLits_inRange _ _ _ _ hp
  obtain ⟨r', n1, e', hok⟩ := h.propagate hA
  rw [e] at e'
  injection e' with e1 e2
  injection e1 with e1
  subst e1 e2
  exact hok

theorem PropagateOk.inv {F : ClauseSet} {t : Option Clause} {A : List Lit} {r : PropagateResult} {n' : Native H}
    (h : PropagateOk F t A r n') : NInv n' F none t := by
  refine ⟨h.view, fun hs => ⟨rfl, (h.sat hs).2.mono fun c hc => by simp [hc]⟩, fun core hs => ?_⟩
  rcases h.state with h1 | h1 <;> rw [hs] at h1 <;> cases h1

theorem CadicalReach.inv {n : Native H} {F : ClauseSet} {t u : Option Clause} (h : CadicalReach n F t u) :
    NInv n F t u := by
  induction h with
  | new => exact NInv.new
  | add _ e ih => exact ih.add e
  | @reserve n F t u v n' _ e ih =>
    unfold Native.reserve at e
    rcases Lit.cInt_cases (Lit.pos v) with ⟨z, ez⟩ | ⟨ez, _⟩
    · rw [ez] at e
      rw [Option.map_some] at e
      injection e with e
      subst e
      exact ⟨by rw [← ih.view]; exact LawfulCadical.resize _ _, nofun, nofun⟩
    · rw [ez] at e
      cases e
  | @addTmp n F t u c n' _ e ih =>
    unfold Native.addTmp at e
    cases hp : passLits Cadical.constrain n.handle c with
    | none => rw [hp] at e; cases e
    | some h' =>
      rw [hp] at e
      injection e with e
      subst e
      refine ⟨?_, nofun, nofun⟩
      show LawfulIpasir.view (Cadical.constrain h' 0) = _
      rw [LawfulCadical.constrainEnd, view_constrainLits hp, ih.view]
      simp
  | @solve n F t u r n' _ hu e ih =>
    rcases n.solve_cases with ⟨hs, he⟩ | ⟨hs, he⟩ | ⟨_, _, he⟩
    · rw [he] at e; injection e with _ e; subst e
      have := (ih.sat hs).1
      subst this
      exact ⟨ih.view, ih.sat, fun c hc => absurd hc (by rw [hs]; nofun)⟩
    · rw [he] at e; injection e with _ e; subst e
      have := (ih.unsat _ hs).1
      subst this
      have := hu _ hs
      subst this
      exact ih
    · rw [he] at e; exact (ih.solve_query e).inv
  | assumps _ e ih => exact (ih.assumps e).inv
  | @simplify n F t u k r n' _ hu e ih =>
    rcases n.simplify_cases k with ⟨hs, he⟩ | ⟨c, hs, he⟩ | ⟨_, _, he⟩
    · rw [he] at e; injection e with _ e; subst e
      have := (ih.sat hs).1
      subst this
      exact ⟨ih.view, ih.sat, fun c hc => absurd hc (by rw [hs]; nofun)⟩
    · rw [he] at e; injection e with _ e; subst e
      have := (ih.unsat _ hs).1
      subst this
      have := (hu _ hs).2
      subst this
      exact ih
    · rw [he] at e
      exact (ih.simplify e).inv fun _ => rfl
  | propagate _ e ih => exact (ih.propagate_ok e).inv
  | simplifyAssumps _ h1 h2 hr e ih => exact (ih.simplifyAssumps h1 h2 e).inv fun h => absurd h hr

/-- C70: what `solve` returns is right for the clauses added so far and the temporary clause for this call, if there is
one. (`_partial`: not if the last query returned `Unsat` with a temporary clause, see `C70_violated_tmp_clause`.) -/
theorem C70_solve_partial {n n' : Native H} {F : ClauseSet} {t u : Option Clause} {r : SolverResult}
    (h : CadicalReach n F t u) (hu : ∀ core, n.state = .unsat core → u = none) (e : n.solve = (.ok r, n')) :
    (r = .sat → GivesModel (fun l => (n'.cadicalVal l).toOption) (F ++ t.toList)) ∧
    (r = .unsat → Unsatisfiable (F ++ t.toList) ∧ n'.core = .ok []) := by
  have hi := h.inv
  rcases n.solve_cases with ⟨hs, he⟩ | ⟨hs, he⟩ | ⟨_, _, he⟩
  · rw [he] at e
    injection e with e1 e2
    injection e1 with e1
    subst e1 e2
    obtain ⟨ht, hm⟩ := hi.sat hs
    subst ht
    exact ⟨fun _ => Native.cadicalVal_gives hs (by simpa using hm), nofun⟩
  · rw [he] at e
    injection e with e1 e2
    injection e1 with e1
    subst e1 e2
    obtain ⟨ht, hm⟩ := hi.unsat [] hs
    have hu := hu _ hs
    subst ht hu
    exact ⟨nofun, fun _ => ⟨.of_core hm, by unfold Native.core; rw [hs]⟩⟩
  · rw [he] at e
    have q := hi.solve_query e
    refine ⟨fun hr => ?_, fun hr => ?_⟩
    · obtain ⟨hs, hm⟩ := q.sat hr
      exact Native.cadicalVal_gives hs (hm.mono fun c hc => by simpa [units] using hc)
    · obtain ⟨core, hs, hA, hm⟩ := q.unsat hr
      have hc : core = [] := by
        cases core with
        | nil => rfl
        | cons l c => have := hA l List.mem_cons_self; cases this
      subst hc
      refine ⟨.of_core fun m hsat => hm m fun c hc => hsat c ?_, by unfold Native.core; rw [hs]⟩
      rcases List.mem_append.1 hc with hc | hc
      · exact List.mem_append_left _ hc
      · split at hc
        · exact List.mem_append_right _ hc
        · cases hc

/-- C70: what `solve_assumps` returns is right for the clauses added so far, the temporary clause and the assumptions of
this call: after `Unsat` the core consists of negated assumptions, and it is a consequence of the clauses, together with the
temporary clause if `tmp_clause_in_core` says so. -/
theorem C70_assumps_partial {n n' : Native H} {F : ClauseSet} {t u : Option Clause} {A : List Lit} {r : SolverResult}
    (h : CadicalReach n F t u) (e : n.solveAssumps A = (.ok r, n')) :
    (r = .sat → GivesModel (fun l => (n'.cadicalVal l).toOption) (F ++ t.toList ++ units A)) ∧
    (r = .unsat → Unsatisfiable (F ++ t.toList ++ units A) ∧ ∃ core b, n'.core = .ok core ∧ n'.tmpInCore = .ok b ∧
      (∀ l ∈ core, l.neg ∈ A) ∧ ∀ m, ClauseSet.sat m (F ++ if b then t.toList else []) → Clause.sat m core) := by
  have q := h.inv.assumps e
  refine ⟨fun hr => ?_, fun hr => ?_⟩
  · obtain ⟨hs, hm⟩ := q.sat hr
    exact Native.cadicalVal_gives hs hm
  · obtain ⟨core, hs, hA, hm⟩ := q.unsat hr
    have hb : n'.tmpInCore = .ok (LawfulIpasir.coreTmp n'.handle) := by
      have hq : ∃ h', n'.handle = (Ipasir.solve h').2 ∧ (Ipasir.solve h').1 = 20 := by
        unfold Native.solveAssumps at e
        cases hp : passLits Ipasir.assume n.handle A with
        | none => rw [hp] at e; injection e with e _; cases e
        | some h' =>
          rw [hp] at e
          refine ⟨h', ?_⟩
          subst hr
          simp only [Native.record] at e
          by_cases h0 : (Ipasir.solve h').1 = 0
          · rw [if_pos h0] at e; injection e with e _; cases e
          rw [if_neg h0] at e
          by_cases h10 : (Ipasir.solve h').1 = 10
          · rw [if_pos h10] at e; injection e with e _; cases e
          rw [if_neg h10] at e
          by_cases h20 : (Ipasir.solve h').1 = 20
          · rw [if_pos h20] at e
            refine ⟨?_, h20⟩
            cases hc : Native.coreAssumps (Ipasir.solve h').2 A with
            | ok c => rw [hc] at e; injection e with _ e; subst e; rfl
            | err _ => rw [hc] at e; injection e with e _; cases e
            | panic => rw [hc] at e; injection e with e _; cases e
          · rw [if_neg h20] at e; injection e with e _; cases e
      obtain ⟨h', hh, h20⟩ := hq
      unfold Native.tmpInCore
      rw [hs, hh]
      show Res.ok (decide (Cadical.constraintFailed (Ipasir.solve h').2 ≠ 0)) = _
      rw [LawfulCadical.constraintFailed h' h20]
      cases LawfulIpasir.coreTmp (Ipasir.solve h').2 <;> rfl
    refine ⟨?_, core, _, by unfold Native.core; rw [hs], hb, hA, hm⟩
    rintro ⟨m, hsat⟩
    obtain ⟨l, hl, hlm⟩ := hm m fun c hc => hsat c (by
      rw [List.append_assoc]
      rcases List.mem_append.1 hc with hc | hc
      · exact List.mem_append_left _ hc
      · split at hc
        · exact List.mem_append_right _ (List.mem_append_left _ hc)
        · cases hc)
    obtain ⟨l', hl', h'⟩ := hsat [l.neg] (List.mem_append_right _ (List.mem_map_of_mem (hA l hl)))
    rw [List.mem_singleton.1 hl', Lit.holds_neg, hlm] at h'
    cases h'

/-- C70: what `simplify` returns is right for the clauses added so far and the temporary clause. (`_partial`: not if the
last query returned `Unsat` with assumptions or the temporary clause, see `C70_violated_simplify`.) -/
theorem C70_simplify_partial {n n' : Native H} {F : ClauseSet} {t u : Option Clause} {k : Nat} {r : SolverResult}
    (h : CadicalReach n F t u) (hu : ∀ core, n.state = .unsat core → core = [] ∧ u = none)
    (e : n.simplify k = (.ok r, n')) :
    (r = .sat → GivesModel (fun l => (n'.cadicalVal l).toOption) (F ++ t.toList)) ∧
    (r = .unsat → Unsatisfiable (F ++ t.toList) ∧ n'.core = .ok []) := by
  have hi := h.inv
  rcases n.simplify_cases k with ⟨hs, he⟩ | ⟨c, hs, he⟩ | ⟨_, _, he⟩
  · rw [he] at e
    injection e with e1 e2
    injection e1 with e1
    subst e1 e2
    obtain ⟨ht, hm⟩ := hi.sat hs
    subst ht
    exact ⟨fun _ => Native.cadicalVal_gives hs (by simpa using hm), nofun⟩
  · rw [he] at e
    injection e with e1 e2
    injection e1 with e1
    subst e1 e2
    obtain ⟨ht, hm⟩ := hi.unsat _ hs
    obtain ⟨hc, hu⟩ := hu _ hs
    subst ht hu hc
    exact ⟨nofun, fun _ => ⟨.of_core hm, by unfold Native.core; rw [hs]⟩⟩
  · rw [he] at e
    have q := hi.simplify e
    refine ⟨fun hr => ?_, fun hr => ?_⟩
    · obtain ⟨hs, hm⟩ := q.sat hr
      exact Native.cadicalVal_gives hs (hm.mono fun c hc => by simpa [units] using hc)
    · obtain ⟨hs, hm⟩ := q.unsat hr
      exact ⟨by simpa [units] using hm, by unfold Native.core; rw [hs]⟩

/-- C70: what `simplify_assumps` returns is right for the clauses added so far, the temporary clause and the assumptions of
this call. (`_partial`: not after `Sat` and `Unsat`, and the core after `Unsat` is wrong, see
`C70_violated_simplify_assumps`.) -/
theorem C70_simplify_assumps_partial {n n' : Native H} {F : ClauseSet} {t u : Option Clause} {A : List Lit} {k : Nat}
    {r : SolverResult} (h : CadicalReach n F t u) (h1 : n.state ≠ .sat) (h2 : ∀ core, n.state ≠ .unsat core)
    (e : n.simplifyAssumps A k = (.ok r, n')) :
    (r = .sat → GivesModel (fun l => (n'.cadicalVal l).toOption) (F ++ t.toList ++ units A)) ∧
    (r = .unsat → Unsatisfiable (F ++ t.toList ++ units A)) := by
  have q := h.inv.simplifyAssumps h1 h2 e
  refine ⟨fun hr => ?_, fun hr => (q.unsat hr).2⟩
  obtain ⟨hs, hm⟩ := q.sat hr
  exact Native.cadicalVal_gives hs hm

/-- C70: values and cores that are read at any time are right for the clauses added so far, if the core is taken together
with the temporary clause of the query; and no operation fails if literals fit a `c_int`. -/
theorem C70_states_partial {n : Native H} {F : ClauseSet} {t u : Option Clause} (h : CadicalReach n F t u) :
    (n.state = .sat → GivesModel (fun l => (n.cadicalVal l).toOption) F ∧
      ∀ l : Lit, l.InRange → ∃ x, n.cadicalVal l = .ok x) ∧
    (∀ core, n.core = .ok core → ∀ m, ClauseSet.sat m (F ++ u.toList) → Clause.sat m core) ∧
    (∀ c : Clause, (∀ l ∈ c, l.InRange) → (∃ n', n.addClause c = some n') ∧ ∃ n', n.addTmp c = some n') ∧
    (∀ v, (Lit.pos v).InRange → ∃ n', n.reserve v = some n') ∧
    (∃ r n', n.solve = (.ok r, n')) ∧
    (∀ A : List Lit, (∀ l ∈ A, l.InRange) → ∃ r n', n.solveAssumps A = (.ok r, n')) ∧
    ∀ k : Nat, (k : Int) ≤ i32Max → (∃ r n', n.simplify k = (.ok r, n')) ∧
      ∀ A : List Lit, (∀ l ∈ A, l.InRange) → ∃ r n', n.simplifyAssumps A k = (.ok r, n') := by
  have hi := h.inv
  have hrec : ∀ h k, ∃ r n', n.recordSimplify (Cadical.simplify h k) = (.ok r, n') := by
    intro h k
    unfold Native.recordSimplify
    rcases LawfulCadical.simplifyResult h k with h0 | h0 | h0
    · rw [if_pos h0]; exact ⟨_, _, rfl⟩
    · rw [if_neg (by omega), if_pos h0]; exact ⟨_, _, rfl⟩
    · rw [if_neg (by omega), if_neg (by omega), if_pos h0]; exact ⟨_, _, rfl⟩
  refine ⟨fun hs => ⟨Native.cadicalVal_gives hs (hi.sat hs).2, fun l hl => ?_⟩, fun core hc => ?_, fun c hc => ⟨?_, ?_⟩,
    fun v hv => ?_, ?_, fun A hA => ?_, fun k hk => ⟨?_, fun A hA => ?_⟩⟩
  · obtain ⟨z, e⟩ := Lit.cInt_of_inRange hl
    obtain ⟨p, _, h2, _⟩ := (hi.sat hs).2
    have h2 := h2 l z e
    simp only [Native.cadicalVal, if_pos hs, e]
    by_cases e0 : Ipasir.val n.handle z = 0
    · rw [if_pos e0]; exact ⟨_, rfl⟩
    rw [if_neg e0]
    by_cases e1 : Ipasir.val n.handle z = z
    · rw [if_pos e1]; exact ⟨_, rfl⟩
    rw [if_neg e1]
    by_cases e2 : Ipasir.val n.handle z = -z
    · rw [if_pos e2]; exact ⟨_, rfl⟩
    rw [if_neg e2]
    by_cases e3 : Ipasir.val n.handle z = -1
    · rw [if_pos e3]; exact ⟨_, rfl⟩
    · cases hp : p l.var with
      | none => rcases h2.2 hp with h | h; exact absurd h e0; exact absurd h.2 e3
      | some b => have := h2.1 b hp; split at this; exact absurd this e2; exact absurd this e1
  · cases hs : n.state with
    | unsat c =>
      have : n.core = .ok c := by unfold Native.core; rw [hs]
      rw [this] at hc
      injection hc with hc
      exact hc ▸ (hi.unsat c hs).2
    | _ => unfold Native.core at hc; rw [hs] at hc; cases hc
  · obtain ⟨h', e⟩ := passLits_total Ipasir.add c n.handle hc
    exact ⟨_, by unfold Native.addClause; rw [e]; rfl⟩
  · obtain ⟨h', e⟩ := passLits_total Cadical.constrain c n.handle hc
    exact ⟨_, by unfold Native.addTmp; rw [e]; rfl⟩
  · obtain ⟨z, e⟩ := Lit.cInt_of_inRange hv
    exact ⟨_, by unfold Native.reserve; rw [e]; rfl⟩
  · rcases n.solve_cases with ⟨_, he⟩ | ⟨_, he⟩ | ⟨_, _, he⟩
    · exact ⟨_, _, he⟩
    · exact ⟨_, _, he⟩
    · rw [he]
      exact query_total n n.handle fun _ => ⟨_, rfl⟩
  · obtain ⟨h', e⟩ := passLits_total Ipasir.assume A n.handle hA
    unfold Native.solveAssumps
    rw [e]
    have hv := view_assumeLits e
    rw [hi.view] at hv
    exact query_total n h' fun h20 => ⟨_, coreAssumps_eq h20 A (by rw [hv]; simp) hA⟩
  · rcases n.simplify_cases k with ⟨_, he⟩ | ⟨c, _, he⟩ | ⟨_, _, he⟩
    · exact ⟨_, _, he⟩
    · exact ⟨_, _, he⟩
    · rw [he, if_pos hk]
      exact hrec _ _
  · by_cases h1 : n.state = .sat
    · exact ⟨_, _, by unfold Native.simplifyAssumps; rw [h1]⟩
    by_cases h2 : ∃ core, n.state = .unsat core
    · obtain ⟨c, hc⟩ := h2
      exact ⟨_, _, by unfold Native.simplifyAssumps; rw [hc]⟩
    · rw [Native.simplifyAssumps_eq h1 (fun c hc => h2 ⟨c, hc⟩), if_pos hk]
      obtain ⟨h', e⟩ := passLits_total Ipasir.assume A n.handle hA
      rw [e]
      exact hrec _ _

end

/-- The hypotheses hold for a history with a temporary clause in an unsatisfiable query under assumptions, simplification,
and reserved variables. -/
example : ∃ (n1 n2 n3 n4 n5 n6 n7 n8 : Native ToyLib), CadicalReach n8 [[Lit.pos 0], [Lit.pos 3]] none none ∧
    Native.new.reserve 5 = some n1 ∧ n1.addClause [Lit.pos 0] = some n2 ∧ n2.addTmp [Lit.negOf 2] = some n3 ∧
    n3.solveAssumps [Lit.pos 1, Lit.pos 2] = (.ok .unsat, n4) ∧ n4.core = .ok [Lit.negOf 1, Lit.negOf 2] ∧
    n4.tmpInCore = .ok true ∧ n4.solveAssumps [Lit.pos 2] = (.ok .sat, n5) ∧ n5.cadicalVal (Lit.negOf 2) = .ok .false ∧
    n5.addClause [Lit.pos 3] = some n6 ∧ n6.simplifyAssumps [Lit.pos 7] 2 = (.ok .sat, n7) ∧
    n7.simplify 3 = (.ok .sat, n8) := by
  refine ⟨_, _, _, _, _, _, _, _, ((((((((CadicalReach.new (H := ToyLib)).reserve (v := 5)
    (eq_some_getD (d := Native.new) (by decide))).add (c := [Lit.pos 0]) (eq_some_getD (d := Native.new) (by decide))).addTmp
    (c := [Lit.negOf 2]) (eq_some_getD (d := Native.new) (by decide))).assumps (A := [Lit.pos 1, Lit.pos 2]) (r := .unsat)
    (eq_pair_of_fst (by decide))).assumps (A := [Lit.pos 2]) (r := .sat) (eq_pair_of_fst (by decide))).add
    (c := [Lit.pos 3]) (eq_some_getD (d := Native.new) (by decide))).simplifyAssumps (A := [Lit.pos 7]) (k := 2) (r := .sat)
    (by decide) (NState.ne_unsat (by decide)) (by decide) (eq_pair_of_fst (by decide))).simplify (k := 3) (r := .sat)
    (fun core h => absurd h (NState.ne_unsat (by decide) core)) (eq_pair_of_fst (by decide)),
    (eq_some_getD (d := Native.new) (by decide)), (eq_some_getD (d := Native.new) (by decide)), (eq_some_getD (d := Native.new) (by decide)), (eq_pair_of_fst (by decide)), (by decide), (by decide), (eq_pair_of_fst (by decide)), (by decide),
    (eq_some_getD (d := Native.new) (by decide)), (eq_pair_of_fst (by decide)), (eq_pair_of_fst (by decide))⟩

/-- C70 is violated: after `Sat`, `simplify_assumps` returns `Sat` whatever the assumptions are; and if it returns `Unsat`
because of the assumptions then the core is empty, and the next call of `solve` returns `Unsat` for satisfiable clauses. -/
theorem C70_violated_simplify_assumps :
    (∃ n1 n2 n3 : Native ToyLib, Native.new.addClause [Lit.pos 0] = some n1 ∧ n1.solve = (.ok .sat, n2) ∧
      n2.simplifyAssumps [Lit.negOf 0] 1 = (.ok .sat, n3) ∧ Unsatisfiable ([[Lit.pos 0]] ++ units [Lit.negOf 0])) ∧
    ∃ n1 n2 n3 : Native ToyLib, Native.new.addClause [Lit.pos 0] = some n1 ∧
      n1.simplifyAssumps [Lit.negOf 0] 1 = (.ok .unsat, n2) ∧ n2.core = .ok [] ∧ n2.solve = (.ok .unsat, n3) ∧
      ClauseSet.sat (fun _ => true) [[Lit.pos 0]] := by
  refine ⟨⟨_, _, _, (eq_some_getD (d := Native.new) (by decide)), (eq_pair_of_fst (by decide)), (eq_pair_of_fst (by decide)), ToyLib.bad_unsat (by decide)⟩,
    _, _, _, (eq_some_getD (d := Native.new) (by decide)), (eq_pair_of_fst (by decide)), (by decide), (eq_pair_of_fst (by decide)), ?_⟩
  simp [ClauseSet.sat, Clause.sat]

/-- C70 is violated: after `Unsat` under assumptions, `simplify` returns `Unsat` for satisfiable clauses. -/
theorem C70_violated_simplify : ∃ n1 n2 n3 : Native ToyLib, Native.new.addClause [Lit.pos 0] = some n1 ∧
    n1.solveAssumps [Lit.negOf 0] = (.ok .unsat, n2) ∧ n2.simplify 1 = (.ok .unsat, n3) ∧
    ClauseSet.sat (fun _ => true) [[Lit.pos 0]] := by
  refine ⟨_, _, _, (eq_some_getD (d := Native.new) (by decide)), (eq_pair_of_fst (by decide)), (eq_pair_of_fst (by decide)), ?_⟩
  simp [ClauseSet.sat, Clause.sat]

/-- C70 is violated: after `Unsat` because of a temporary clause, the next call of `solve` returns `Unsat` as well, although
the temporary clause exists for one call only, and the core is empty although the clauses are satisfiable. -/
theorem C70_violated_tmp_clause : ∃ n1 n2 n3 n4 : Native ToyLib, Native.new.addClause [Lit.pos 0] = some n1 ∧
    n1.addTmp [Lit.negOf 0] = some n2 ∧ n2.solve = (.ok .unsat, n3) ∧ n3.solve = (.ok .unsat, n4) ∧ n4.core = .ok [] ∧
    (Ipasir.solve n3.handle).1 = 10 ∧ ClauseSet.sat (fun _ => true) [[Lit.pos 0]] := by
  refine ⟨_, _, _, _, (eq_some_getD (d := Native.new) (by decide)), (eq_some_getD (d := Native.new) (by decide)), (eq_pair_of_fst (by decide)), (eq_pair_of_fst (by decide)), (by decide), (by decide), ?_⟩
  simp [ClauseSet.sat, Clause.sat]

/-- C70 is violated: temporary clauses are counted as clauses for good, also those that were replaced. -/
theorem C70_violated_count : ∃ n1 n2 : Native ToyLib, Native.new.addTmp [Lit.pos 0] = some n1 ∧
    n1.addTmp [Lit.pos 1] = some n2 ∧ n2.solve.2.stats.nClauses = 2 :=
  ⟨_, _, (eq_some_getD (d := Native.new) (by decide)), (eq_some_getD (d := Native.new) (by decide)), by decide⟩

end RustSat
