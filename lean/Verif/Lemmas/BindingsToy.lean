import Verif.Lemmas.Bindings
/-
A small solver library, used to show that the hypotheses of the theorems about wrappers can be met.
-/
namespace RustSat

/-- A library that tries one assignment, finds contradictory unit clauses, and gives up otherwise. -/
structure ToyLib where
  view : LibView := {}
  model : Nat → Option Bool := fun _ => none
  core : List Lit := []
  coreTmp : Bool := false
  searched : Bool := false
  implied : List Int := []

namespace ToyLib

/-- The literal of an integer. -/
def lit (z : Int) : Lit := if z < 0 then Lit.negOf (z.natAbs - 1) else Lit.pos (z.natAbs - 1)

theorem lit_eq {l : Lit} {z : Int} (h : l.cInt = some z) : lit z = l ∧ z ≠ 0 := by
  have hz := (Lit.cInt_some h).2
  unfold lit
  cases hn : l.isNeg with
  | true =>
    rw [hn, if_pos rfl] at hz
    rw [if_pos (by omega)]
    refine ⟨?_, by omega⟩
    have : z.natAbs - 1 = l.var := by omega
    rw [this]
    have := Lit.mk'_var_isNeg l
    rw [hn] at this
    exact this
  | false =>
    rw [hn, if_neg (by simp)] at hz
    rw [if_neg (by omega)]
    refine ⟨?_, by omega⟩
    have : z.natAbs - 1 = l.var := by omega
    rw [this]
    have := Lit.mk'_var_isNeg l
    rw [hn] at this
    exact this

/-- Whether the formula contains a variable. -/
def mentions (F : ClauseSet) (v : Nat) : Bool := F.any fun c => c.any fun l => l.var == v

/-- The assignment that is tried. -/
def guess (F : ClauseSet) (v : Nat) : Bool := F.contains [Lit.pos v]

/-- The assignment satisfies the formula, and all variables are small enough for the libraries. -/
def good (F : ClauseSet) : Bool := F.all fun c => (c.any fun l => l.holds (guess F)) && c.all fun l => decide (l.var < kissatMaxVar)

/-- There are contradictory unit clauses. -/
def bad (F : ClauseSet) : Bool := F.any fun c => c.any fun l => F.contains [l] && F.contains [l.neg]

/-- The values of the variables. -/
def values (F : ClauseSet) (v : Nat) : Option Bool := if mentions F v then some (guess F v) else none

/-- The value of a literal as an integer. -/
def val (p : Nat → Option Bool) (z : Int) : Int :=
  match p (lit z).var with
  | some b => if b = (lit z).isNeg then -z else z
  | none => 0

/-- A query. -/
def run (h : ToyLib) : Int × ToyLib :=
  let h' : ToyLib := { h with view := { h.view with assumps := [], tmp := none }, searched := true }
  if good h.view.formula then (10, { h' with model := values h.view.formula })
  else if bad h.view.formula then (20, { h' with core := h.view.assumps, coreTmp := true })
  else (0, h')

theorem run_result (h : ToyLib) : h.run.1 = 0 ∨ h.run.1 = 10 ∨ h.run.1 = 20 := by
  unfold run
  by_cases h1 : good h.view.formula = true
  · simp [h1]
  · by_cases h2 : bad h.view.formula = true <;> simp [h1, h2]

theorem run_view (h : ToyLib) : h.run.2.view = { h.view with assumps := [], tmp := none } ∧ h.run.2.searched = true := by
  unfold run
  by_cases h1 : good h.view.formula = true
  · simp [h1]
  · by_cases h2 : bad h.view.formula = true <;> simp [h1, h2]

theorem run_sat {h : ToyLib} (e : h.run.1 = 10) : good h.view.formula = true ∧ h.run.2.model = values h.view.formula := by
  unfold run at e ⊢
  by_cases h1 : good h.view.formula = true
  · simp [h1]
  · by_cases h2 : bad h.view.formula = true <;> simp [h1, h2] at e

theorem run_unsat {h : ToyLib} (e : h.run.1 = 20) : bad h.view.formula = true ∧ h.run.2.core = h.view.assumps ∧
    h.run.2.coreTmp = true := by
  unfold run at e ⊢
  by_cases h1 : good h.view.formula = true
  · simp [h1] at e
  · by_cases h2 : bad h.view.formula = true <;> simp [h1, h2] at e ⊢

theorem good_sat {F : ClauseSet} (h : good F = true) : ∀ m, Extends (values F) m → ClauseSet.sat m F := by
  intro m hm c hc
  have hc' := List.all_eq_true.1 h c hc
  simp only [Bool.and_eq_true, List.any_eq_true] at hc'
  obtain ⟨l, hl, hlv⟩ := hc'.1
  refine ⟨l, hl, ?_⟩
  have hmen : mentions F l.var = true := by
    unfold mentions
    exact List.any_eq_true.2 ⟨c, hc, List.any_eq_true.2 ⟨l, hl, by simp⟩⟩
  have := hm l.var (guess F l.var) (by unfold values; rw [if_pos hmen])
  rw [Lit.holds_congr this]
  exact hlv

theorem good_small {F : ClauseSet} (h : good F = true) : ∀ v b, values F v = some b → v < kissatMaxVar := by
  intro v b hv
  unfold values at hv
  by_cases hm : mentions F v = true
  · unfold mentions at hm
    obtain ⟨c, hc, hl⟩ := List.any_eq_true.1 hm
    obtain ⟨l, hl, hlv⟩ := List.any_eq_true.1 hl
    have hc' := List.all_eq_true.1 h c hc
    rw [Bool.and_eq_true] at hc'
    have := List.all_eq_true.1 hc'.2 l hl
    have := of_decide_eq_true this
    have e : l.var = v := by simpa using hlv
    rw [e] at this
    exact this
  · rw [if_neg hm] at hv
    cases hv

theorem good_range {F : ClauseSet} (h : good F = true) : ∀ v b, values F v = some b → (Lit.pos v).InRange := by
  intro v b hv
  have := good_small h v b hv
  unfold Lit.InRange i32Max
  rw [Lit.var_pos]
  unfold kissatMaxVar at this
  omega

theorem good_reports {F : ClauseSet} (h : good F = true) : ReportsModel (val (values F)) False F := by
  refine ⟨values F, good_range h, fun l z e => ?_, good_sat h⟩
  unfold val
  rw [(lit_eq e).1]
  refine ⟨fun b hb => ?_, fun hb => ?_⟩
  · rw [hb]
  · rw [hb]
    exact .inl rfl

theorem bad_unsat {F : ClauseSet} (h : bad F = true) : Unsatisfiable F := by
  rintro ⟨m, hm⟩
  obtain ⟨c, _, hc⟩ := List.any_eq_true.1 h
  obtain ⟨l, _, hl⟩ := List.any_eq_true.1 hc
  rw [Bool.and_eq_true, List.contains_iff_mem, List.contains_iff_mem] at hl
  obtain ⟨l1, h1, h1m⟩ := hm _ hl.1
  obtain ⟨l2, h2, h2m⟩ := hm _ hl.2
  rw [List.mem_singleton.1 h1] at h1m
  rw [List.mem_singleton.1 h2, Lit.holds_neg, h1m] at h2m
  cases h2m

/-- The unit clauses, and a literal of the temporary clause. -/
def unitLits (w : LibView) : List Lit :=
  ((w.clauses ++ units w.assumps).filterMap fun c => match c with | [l] => some l | _ => none) ++
    (w.tmp.bind List.head?).toList

/-- Propagation. -/
def prop (h : ToyLib) : Int × ToyLib := (h.run.1, { h.run.2 with implied := (unitLits h.view).filterMap Lit.cInt })

instance : Cadical ToyLib where
  init := {}
  add h z := if z = 0 then { h with view := { h.view with clauses := h.view.clauses ++ [h.view.pending], pending := [] } }
    else { h with view := { h.view with pending := h.view.pending ++ [lit z] } }
  assume h z := { h with view := { h.view with assumps := h.view.assumps ++ [lit z] } }
  solve h := h.run
  val h z := val h.model z
  failed h z := if lit z ∈ h.core then 1 else 0
  constrain h z := if z = 0 then { h with view := { h.view with tmp := some h.view.tmpPending, tmpPending := [] } }
    else { h with view := { h.view with tmpPending := h.view.tmpPending ++ [lit z] } }
  constraintFailed h := if h.coreTmp then 1 else 0
  simplify h _ := h.run
  resize h _ := h
  propagate h := h.prop
  implied h := h.implied

theorem unitLits_implied {w : LibView} {l : Lit} (ht : w.tmp = none) (hl : l ∈ unitLits w) : Implies w.formula l := by
  unfold unitLits at hl
  rw [ht] at hl
  simp only [Option.bind_none, Option.toList_none, List.append_nil, List.mem_filterMap] at hl
  obtain ⟨c, hc, hcl⟩ := hl
  intro m hm
  have hcm : c ∈ w.formula := by
    unfold LibView.formula
    rw [ht]
    simpa using hc
  match c, hcl with
  | [k], hk =>
    injection hk with hk
    subst hk
    obtain ⟨a, ha, hh⟩ := hm _ hcm
    rw [List.mem_singleton.1 ha] at hh
    exact hh

instance : LawfulCadical ToyLib where
  view := view
  minusOne := False
  core := core
  coreTmp := coreTmp
  init := rfl
  addLit h l z e := by
    show (if z = 0 then _ else _ : ToyLib).view = _
    rw [if_neg (lit_eq e).2, (lit_eq e).1]
  addEnd h := rfl
  assume h l z e := by
    show ({ h with view := { h.view with assumps := h.view.assumps ++ [lit z] } } : ToyLib).view = _
    rw [(lit_eq e).1]
  solveResult h := run_result h
  solveView h := (run_view h).1
  solveSat h e := by
    show ReportsModel (val h.run.2.model) _ _
    rw [(run_sat e).2]
    exact good_reports (run_sat e).1
  solveUnsat h e := by
    obtain ⟨h1, h2, h3⟩ := run_unsat e
    show (∀ a ∈ h.run.2.core, _) ∧ Unsatisfiable (_ ++ (if h.run.2.coreTmp = true then _ else _) ++ units h.run.2.core)
    rw [h2, h3, if_pos rfl]
    exact ⟨fun a ha => ha, bad_unsat h1⟩
  failed h e a ha z ez := by
    show (if lit z ∈ h.run.2.core then (1 : Int) else 0) = if a ∈ h.run.2.core then 1 else 0
    rw [(lit_eq ez).1]
  constrainLit h l z e := by
    show (if z = 0 then _ else _ : ToyLib).view = _
    rw [if_neg (lit_eq e).2, (lit_eq e).1]
  constrainEnd h := rfl
  constraintFailed h _ := rfl
  resize _ _ := rfl
  simplifyResult h _ := run_result h
  simplifyView h _ := (run_view h).1
  simplifySat h _ e := by
    show ReportsModel (val h.run.2.model) _ _
    rw [(run_sat e).2]
    exact good_reports (run_sat e).1
  simplifyUnsat h _ e := bad_unsat (run_unsat e).1
  propagateResult h := run_result h
  propagateView h := (run_view h).1
  propagateSat h e := by
    show ReportsModel (val h.run.2.model) _ _
    rw [(run_sat e).2]
    exact good_reports (run_sat e).1
  propagateUnsat h e := bad_unsat (run_unsat e).1
  implied h _ z hz := by
    obtain ⟨l, hl, e⟩ := List.mem_filterMap.1 (show z ∈ (unitLits h.view).filterMap Lit.cInt from hz)
    exact ⟨l, e, fun ht => unitLits_implied ht hl⟩

end ToyLib
end RustSat
