import Verif.Props.Atomics
import Verif.Props.Constraints
import Verif.Props.Clause
import Verif.Lemmas.VarManager
/-
Property theorems C16–C18 (satisfaction instances) and C49 (evaluation of instances).
-/
namespace RustSat
open SatInstance

private def x0 : Lit := Lit.mk' 0 false
private def x1 : Lit := Lit.mk' 1 false
private def x2 : Lit := Lit.mk' 2 false

/-! ### C16 -/

/-- Meaning of the loop state of `sanitize`. -/
private def stSat (a : Asg) (s : SanState) : Prop :=
  s.unsat = false ∧ ClauseSet.sat a s.cnf ∧ (∀ c ∈ s.cards, CardConstraint.sat a c) ∧
    (∀ c ∈ s.pbs, PbConstraint.sat a c)

private theorem addUnits_sat (a : Asg) (ls : List Lit) (f : ClauseSet) :
    ClauseSet.sat a (addUnits f ls) ↔ ClauseSet.sat a f ∧ ∀ l ∈ ls, l.holds a = true := by
  unfold addUnits
  induction ls generalizing f with
  | nil => simp
  | cons l ls ih =>
    rw [List.foldl_cons, ih]
    simp [Cnf.addUnit, Cnf.addClause, and_assoc]

/-- The side condition on PB equalities under which `sanitize` is correct. -/
def EqOk : PbConstraint → Prop
  | .eq l _ b => (∀ p ∈ l, 0 < p.2) ∧ ∀ w : Nat, (∀ p ∈ l, p.2 = w) → (w : Int) ∣ b
  | _ => True

private theorem sanitizePb_spec (s : SanState) (pb : PbConstraint) (hw : pb.WF) (he : EqOk pb) :
    ∃ s', sanitizePb s pb = some s' ∧ ∀ a, stSat a s' ↔ stSat a s ∧ pb.sat a := by
  unfold sanitizePb
  by_cases h1 : pb.isTautology = true
  · exact ⟨s, by rw [if_pos h1], fun a => by simp [C12_is_tautology pb hw h1 a]⟩
  rw [if_neg h1]
  by_cases h2 : pb.isUnsat = true
  · exact ⟨_, by rw [if_pos h2], fun a => by simp [stSat, C12_is_unsat pb hw h2 a]⟩
  rw [if_neg h2]
  by_cases h3 : pb.isPositiveAssignment = true
  · refine ⟨_, by rw [if_pos h3], fun a => ?_⟩
    have hp : pb.PosWeights ∨ ∃ l ws b, pb = .lb l ws b := by
      cases pb with
      | ub l ws b => simp [PbConstraint.isPositiveAssignment] at h3
      | lb l ws b => exact .inr ⟨_, _, _, rfl⟩
      | eq l ws b => exact .inl he.1
    have hh := C12_is_positive_assignment pb hw hp h3 a
    simp only [stSat, addUnits_sat, hh, List.mem_map]
    constructor
    · rintro ⟨h, ⟨h', h''⟩, h3, h4⟩
      exact ⟨⟨h, h', h3, h4⟩, fun p hp => h'' p.1 ⟨p, hp, rfl⟩⟩
    · rintro ⟨⟨h, h', h3, h4⟩, h5⟩
      exact ⟨h, ⟨h', by rintro _ ⟨p, hp, rfl⟩; exact h5 p hp⟩, h3, h4⟩
  rw [if_neg h3]
  by_cases h4 : pb.isNegativeAssignment = true
  · refine ⟨_, by rw [if_pos h4], fun a => ?_⟩
    have hp : pb.PosWeights ∨ ∃ l ws b, pb = .ub l ws b := by
      cases pb with
      | ub l ws b => exact .inr ⟨_, _, _, rfl⟩
      | lb l ws b => simp [PbConstraint.isNegativeAssignment] at h4
      | eq l ws b => exact .inl he.1
    have hh := C12_is_negative_assignment pb hp h4 a
    simp only [stSat, addUnits_sat, hh, List.mem_map]
    constructor
    · rintro ⟨h, ⟨h', h''⟩, h3, h4⟩
      refine ⟨⟨h, h', h3, h4⟩, fun p hp => ?_⟩
      have := h'' p.1.neg ⟨p, hp, rfl⟩
      rw [Lit.holds_neg] at this; simpa using this
    · rintro ⟨⟨h, h', h3, h4⟩, h5⟩
      exact ⟨h, ⟨h', by rintro _ ⟨p, hp, rfl⟩; rw [Lit.holds_neg, h5 p hp]; rfl⟩, h3, h4⟩
  rw [if_neg h4]
  by_cases h5 : pb.isClause = true
  · rw [if_pos h5]
    obtain ⟨cl, hcl, hs⟩ := (C13_into_clause pb hw).1 h5
    refine ⟨_, by rw [hcl], fun a => ?_⟩
    simp only [stSat, Cnf.addClause, ClauseSet.sat_append, ClauseSet.sat_cons, ClauseSet.sat_nil, and_true, hs a]
    constructor
    · rintro ⟨h, ⟨h', h''⟩, h3, h4⟩; exact ⟨⟨h, h', h3, h4⟩, h''⟩
    · rintro ⟨⟨h, h', h3, h4⟩, h''⟩; exact ⟨h, ⟨h', h''⟩, h3, h4⟩
  rw [if_neg h5]
  by_cases h6 : pb.isCard = true
  · rw [if_pos h6]
    obtain ⟨hok, ht, hu, hn, _⟩ := C13_into_card_constr pb hw
    have hex : ∃ d, pb.intoCardConstr = .ok d := by
      simp only [PbConstraint.intoCardConstr, if_neg h1, if_neg h2]
      obtain ⟨uw, huw⟩ := Option.isSome_iff_exists.1 h6
      obtain ⟨hne, hall⟩ := PbConstraint.findUnitWeight_some huw
      have hzero : uw = 0 → wtotal pb.lits = 0 := by
        intro h0
        have : ∀ ls : List (Lit × Nat), (∀ p ∈ ls, p.2 = uw) → wtotal ls = 0 := by
          intro ls
          induction ls with
          | nil => simp
          | cons p ls ih =>
            intro h
            rw [wtotal_cons, h p (List.mem_cons_self ..), ih fun q hq => h q (List.mem_cons_of_mem _ hq), h0]
        exact this _ hall
      have hwf : pb.weightSum = wtotal pb.lits := hw
      cases pb with
      | ub l ws b =>
        simp only [PbConstraint.lits, PbConstraint.weightSum] at huw hzero hwf
        simp only [huw]
        cases uw with
        | zero =>
          exfalso
          have := hzero rfl
          simp only [PbConstraint.isUnsat, decide_eq_true_eq] at h2
          simp only [PbConstraint.isTautology, if_neg h2, decide_eq_true_eq] at h1
          omega
        | succ n => exact ⟨_, rfl⟩
      | lb l ws b =>
        simp only [PbConstraint.lits, PbConstraint.weightSum] at huw hzero hwf
        simp only [huw]
        cases uw with
        | zero =>
          exfalso
          have := hzero rfl
          simp only [PbConstraint.isTautology, decide_eq_true_eq] at h1
          have hb : ¬ b < 0 := by omega
          simp only [PbConstraint.isUnsat, if_neg hb, decide_eq_true_eq] at h2
          omega
        | succ n => exact ⟨_, rfl⟩
      | eq l ws b =>
        simp only [PbConstraint.lits, PbConstraint.weightSum] at huw hzero hwf hall hne
        simp only [huw]
        cases uw with
        | zero =>
          exfalso
          obtain ⟨p, hp⟩ := List.exists_mem_of_ne_nil l hne
          have h7 := he.1 p hp
          have h8 := hall p hp
          omega
        | succ n =>
          have hd := he.2 (n + 1) hall
          have hd' : b.natAbs % (n + 1) = 0 := by
            have h9 := Int.natAbs_dvd_natAbs.2 hd
            rw [Int.natAbs_natCast] at h9
            exact Nat.mod_eq_zero_of_dvd h9
          simp [hd']
    obtain ⟨d, hd⟩ := hex
    refine ⟨_, by rw [hd], fun a => ?_⟩
    have hds := hok d hd a
    simp only [stSat, List.mem_append, List.mem_singleton, ← hds]
    constructor
    · rintro ⟨h, h', h3, h4⟩
      exact ⟨⟨h, h', fun c hc => h3 c (.inl hc), h4⟩, h3 d (.inr rfl)⟩
    · rintro ⟨⟨h, h', h3, h4⟩, h5⟩
      exact ⟨h, h', fun c hc => hc.elim (h3 c) (fun e => e ▸ h5), h4⟩
  · rw [if_neg h6]
    refine ⟨_, rfl, fun a => ?_⟩
    simp only [stSat, List.mem_append, List.mem_singleton]
    constructor
    · rintro ⟨h, h', h3, h4⟩
      exact ⟨⟨h, h', h3, fun c hc => h4 c (.inl hc)⟩, h4 pb (.inr rfl)⟩
    · rintro ⟨⟨h, h', h3, h4⟩, h5⟩
      exact ⟨h, h', h3, fun c hc => hc.elim (h4 c) (fun e => e ▸ h5)⟩

private theorem sanitizeCard_spec (s : SanState) (c : CardConstraint) :
    ∃ s', sanitizeCard s c = some s' ∧ ∀ a, stSat a s' ↔ stSat a s ∧ c.sat a := by
  unfold sanitizeCard
  by_cases h1 : c.isTautology = true
  · exact ⟨s, by rw [if_pos h1], fun a => by simp [C10_is_tautology c h1 a]⟩
  rw [if_neg h1]
  by_cases h2 : c.isUnsat = true
  · exact ⟨_, by rw [if_pos h2], fun a => by simp [stSat, C10_is_unsat c h2 a]⟩
  rw [if_neg h2]
  by_cases h3 : c.isPositiveAssignment = true
  · refine ⟨_, by rw [if_pos h3], fun a => ?_⟩
    have hh := C10_is_positive_assignment c h3 a
    simp only [stSat, addUnits_sat, hh]
    constructor
    · rintro ⟨h, ⟨h', h''⟩, h3, h4⟩; exact ⟨⟨h, h', h3, h4⟩, h''⟩
    · rintro ⟨⟨h, h', h3, h4⟩, h5⟩; exact ⟨h, ⟨h', h5⟩, h3, h4⟩
  rw [if_neg h3]
  by_cases h4 : c.isNegativeAssignment = true
  · refine ⟨_, by rw [if_pos h4], fun a => ?_⟩
    have hh := C10_is_negative_assignment c h4 a
    simp only [stSat, addUnits_sat, hh, List.mem_map]
    constructor
    · rintro ⟨h, ⟨h', h''⟩, h3, h4⟩
      refine ⟨⟨h, h', h3, h4⟩, fun p hp => ?_⟩
      have := h'' p.neg ⟨p, hp, rfl⟩
      rw [Lit.holds_neg] at this; simpa using this
    · rintro ⟨⟨h, h', h3, h4⟩, h5⟩
      exact ⟨h, ⟨h', by rintro _ ⟨p, hp, rfl⟩; rw [Lit.holds_neg, h5 p hp]; rfl⟩, h3, h4⟩
  rw [if_neg h4]
  by_cases h5 : c.isClause = true
  · rw [if_pos h5]
    obtain ⟨cl, hcl, hs⟩ := (C09_into_clause c).1 h5
    refine ⟨_, by rw [hcl], fun a => ?_⟩
    simp only [stSat, Cnf.addClause, ClauseSet.sat_append, ClauseSet.sat_cons, ClauseSet.sat_nil, and_true, hs a]
    constructor
    · rintro ⟨h, ⟨h', h''⟩, h3, h4⟩; exact ⟨⟨h, h', h3, h4⟩, h''⟩
    · rintro ⟨⟨h, h', h3, h4⟩, h''⟩; exact ⟨h, ⟨h', h''⟩, h3, h4⟩
  · rw [if_neg h5]
    refine ⟨_, rfl, fun a => ?_⟩
    simp only [stSat, List.mem_append, List.mem_singleton]
    constructor
    · rintro ⟨h, h', h3, h4⟩
      exact ⟨⟨h, h', fun c hc => h3 c (.inl hc), h4⟩, h3 c (.inr rfl)⟩
    · rintro ⟨⟨h, h', h3, h4⟩, h5⟩
      exact ⟨h, h', fun d hc => hc.elim (h3 d) (fun e => e ▸ h5), h4⟩

private theorem forLoop_spec {α : Type} (f : SanState → α → Option SanState) (P : Asg → α → Prop)
    (xs : List α) (h : ∀ x ∈ xs, ∀ s, ∃ s', f s x = some s' ∧ ∀ a, stSat a s' ↔ stSat a s ∧ P a x)
    (s : SanState) : ∃ s', forLoop f s xs = some s' ∧ ∀ a, stSat a s' ↔ stSat a s ∧ ∀ x ∈ xs, P a x := by
  induction xs generalizing s with
  | nil => exact ⟨s, rfl, fun a => by simp⟩
  | cons x xs ih =>
    obtain ⟨s', h1, h2⟩ := h x (List.mem_cons_self ..) s
    obtain ⟨s'', h3, h4⟩ := ih (fun y hy => h y (List.mem_cons_of_mem _ hy)) s'
    refine ⟨s'', by simp only [forLoop, h1, h3], fun a => ?_⟩
    rw [h4, h2]
    simp [and_assoc]

/-- C16: `sanitize` does not panic and preserves the models, the variable manager is unchanged.
`_partial`: PB equalities must have positive weights, and a common weight of all literals must divide the
bound; without this the claim fails, see the two `C16_violated_*` theorems. -/
theorem C16_sanitize_partial {VM : Type} [ManageVars VM] (s : SatInstance VM) (hw : s.WF)
    (he : ∀ c ∈ s.pbs, EqOk c) :
    ∃ t, s.sanitize = some t ∧ t.vm = s.vm ∧ ∀ a, t.sat a ↔ s.sat a := by
  obtain ⟨t, h1, h2⟩ := forLoop_spec sanitizePb (fun a c => PbConstraint.sat a c) s.pbs
    (fun c hc st => sanitizePb_spec st c (hw c hc) (he c hc)) ⟨s.cnf, s.cards, [], false⟩
  obtain ⟨u, h3, h4⟩ := forLoop_spec sanitizeCard (fun a c => CardConstraint.sat a c) t.cards
    (fun c _ st => sanitizeCard_spec st c) { t with cards := [] }
  have key : ∀ a, stSat a u ↔ s.sat a := by
    intro a
    have h2 := h2 a
    rw [h4 a]
    have : stSat a { t with cards := [] } ∧ (∀ x ∈ t.cards, CardConstraint.sat a x) ↔ stSat a t := by
      simp only [stSat, List.not_mem_nil, false_implies, implies_true, true_and]
      constructor
      · rintro ⟨⟨h, h', h3⟩, h4⟩; exact ⟨h, h', h4, h3⟩
      · rintro ⟨h, h', h4, h3⟩; exact ⟨⟨h, h', h3⟩, h4⟩
    rw [this, h2]
    simp only [stSat, SatInstance.sat, List.not_mem_nil, false_implies, implies_true, and_true, true_and, and_assoc]
  unfold SatInstance.sanitize
  simp only [h1, h3]
  cases hu : u.unsat with
  | true =>
    refine ⟨_, rfl, rfl, fun a => ?_⟩
    rw [← key a]
    simp only [stSat, hu, SatInstance.sat]
    simp only [ClauseSet.sat_cons, Clause.sat_cons, Clause.sat_nil, Lit.holds, Lit.var_mk', Lit.isNeg_mk']
    cases a 0 <;> simp
  | false =>
    refine ⟨_, rfl, rfl, fun a => ?_⟩
    rw [← key a]
    simp only [stSat, hu, SatInstance.sat, true_and]
    rw [ClauseSet.sat_filterMap a Clause.sanitize u.cnf (fun c _ => Clause.sat_sanitize a c)]

example : EqOk (.eq [(x0, 2), (x1, 2), (x2, 2)] 6 4) ∧ (PbConstraint.eq [(x0, 2), (x1, 2), (x2, 2)] 6 4).WF ∧
    (SatInstance.sanitize (VM := BasicVM)
      ⟨[[x0, x0.neg], [x1, x1]], [.lb [x0, x1] 1], [.eq [(x0, 2), (x1, 2), (x2, 2)] 6 4], ⟨3⟩⟩).isSome = true := by
  refine ⟨⟨by simp, fun w h => ?_⟩, rfl, by decide⟩
  have := h (x0, 2) (by simp)
  subst this; decide

/-- C16 is violated: sanitising an instance with the constraint `2 x0 + 2 x1 + 2 x2 = 3` panics. -/
theorem C16_violated_panic :
    SatInstance.sanitize (VM := BasicVM) ⟨[], [], [PbConstraint.newEq [(x0, 2), (x1, 2), (x2, 2)] 3], ⟨3⟩⟩ = none := by
  rfl

/-- C16 is violated for zero weights: sanitising `0 x0 = 0` (always true) forces `x0`. -/
theorem C16_violated_zero_weight :
    ∃ t, SatInstance.sanitize (VM := BasicVM) ⟨[], [], [PbConstraint.newEq [(x0, 0)] 0], ⟨1⟩⟩ = some t ∧
      (PbConstraint.newEq [(x0, 0)] 0).sat (fun _ => false) ∧ ¬ t.sat (fun _ => false) := by
  refine ⟨_, rfl, by simp [PbConstraint.newEq, PbConstraint.convertInputLits, PbConstraint.sat], ?_⟩
  intro h
  have := h.1 [x0] (by decide)
  simp [Clause.sat, x0, Lit.holds] at this

/-! ### C17 -/

/-- C17 `_partial`: for an argument without cardinality and PB constraints, `extend`/`&`/`&=` is conjunction.
In general the result only contains the clauses of the argument (`C17_extend_exact`), so conjunction fails
(`C17_violated_extend`). -/
theorem C17_extend_partial {VM : Type} [ManageVars VM] (s o : SatInstance VM) (hc : o.cards = []) (hp : o.pbs = [])
    (a : Asg) : (s.extend o).sat a ↔ s.sat a ∧ o.sat a := by
  simp only [SatInstance.sat, SatInstance.extend, Cnf.join, ClauseSet.sat_append, hc, hp, List.not_mem_nil,
    false_implies, implies_true, and_true]
  constructor
  · rintro ⟨⟨h1, h2⟩, h3⟩; exact ⟨⟨h1, h3⟩, h2⟩
  · rintro ⟨⟨h1, h3⟩, h2⟩; exact ⟨⟨h1, h2⟩, h3⟩

/-- What `extend` really does. -/
theorem C17_extend_exact {VM : Type} [ManageVars VM] (s o : SatInstance VM) (a : Asg) :
    (s.extend o).sat a ↔ s.sat a ∧ ClauseSet.sat a o.cnf := by
  simp only [SatInstance.sat, SatInstance.extend, Cnf.join, ClauseSet.sat_append]
  constructor
  · rintro ⟨⟨h1, h2⟩, h3⟩; exact ⟨⟨h1, h3⟩, h2⟩
  · rintro ⟨⟨h1, h3⟩, h2⟩; exact ⟨⟨h1, h2⟩, h3⟩

/-- C17 is violated: extending by an instance with the cardinality constraint `x0 >= 1` loses it. -/
theorem C17_violated_extend :
    ∃ s o : SatInstance BasicVM, (s.extend o).sat (fun _ => false) ∧ ¬ o.sat (fun _ => false) := by
  refine ⟨⟨[], [], [], ⟨0⟩⟩, ⟨[], [.lb [x0] 1], [], ⟨1⟩⟩, ?_, ?_⟩
  · simp [SatInstance.sat, SatInstance.extend, Cnf.join]
  · intro h
    have := h.2.1 _ (List.mem_singleton.2 rfl)
    simp only [CardConstraint.sat] at this
    revert this; decide

section
variable {VM : Type} [ManageVars VM] [LawfulVM VM]

/-- C17: after combining two instances, the variable manager knows every variable of both. -/
theorem C17_extend_known (s o : SatInstance VM) (hs : s.Known) (ho : o.Known) :
    (∀ v, s.hasVar v ∨ o.hasVar v → v < ManageVars.nUsed (s.extend o).vm) ∧ (s.extend o).Known := by
  have h : ∀ v, s.hasVar v ∨ o.hasVar v → v < ManageVars.nUsed (s.extend o).vm := by
    intro v hv
    simp only [SatInstance.extend, LawfulVM.combine]
    rcases hv with hv | hv
    · have := hs v hv; omega
    · have := ho v hv; omega
  refine ⟨h, fun v hv => h v ?_⟩
  simp only [SatInstance.hasVar, SatInstance.extend, Cnf.join, List.mem_append] at hv
  rcases hv with ⟨c, hc | hc, hl⟩ | hv | hv
  · exact .inl (.inl ⟨c, hc, hl⟩)
  · exact .inr (.inl ⟨c, hc, hl⟩)
  · exact .inl (.inr (.inl hv))
  · exact .inl (.inr (.inr hv))

/-- C17/C19: the methods adding constraints keep every variable of the instance known to the manager and
add exactly the constraint. -/
theorem C17_add_constraints (s : SatInstance VM) (c : Clause) (k : CardConstraint) (p : PbConstraint) :
    (∀ a, (s.addClause c).sat a ↔ s.sat a ∧ Clause.sat a c) ∧
    (∀ a, (s.addCard k).sat a ↔ s.sat a ∧ k.sat a) ∧
    (∀ a, (s.addPb p).sat a ↔ s.sat a ∧ p.sat a) ∧
    (s.Known → (s.addClause c).Known ∧ (s.addCard k).Known ∧ (s.addPb p).Known) := by
  refine ⟨fun a => ?_, fun a => ?_, fun a => ?_, fun hk => ⟨?_, ?_, ?_⟩⟩
  · simp only [SatInstance.sat, SatInstance.addClause, Cnf.addClause, ClauseSet.sat_append, ClauseSet.sat_cons,
      ClauseSet.sat_nil, and_true]
    constructor
    · rintro ⟨⟨h1, h2⟩, h3⟩; exact ⟨⟨h1, h3⟩, h2⟩
    · rintro ⟨⟨h1, h3⟩, h2⟩; exact ⟨⟨h1, h2⟩, h3⟩
  · simp only [SatInstance.sat, SatInstance.addCard, List.mem_append, List.mem_singleton]
    constructor
    · rintro ⟨h1, h2, h3⟩; exact ⟨⟨h1, fun d hd => h2 d (.inl hd), h3⟩, h2 k (.inr rfl)⟩
    · rintro ⟨⟨h1, h2, h3⟩, h4⟩; exact ⟨h1, fun d hd => hd.elim (h2 d) (fun e => e ▸ h4), h3⟩
  · simp only [SatInstance.sat, SatInstance.addPb, List.mem_append, List.mem_singleton]
    constructor
    · rintro ⟨h1, h2, h3⟩; exact ⟨⟨h1, h2, fun d hd => h3 d (.inl hd)⟩, h3 p (.inr rfl)⟩
    · rintro ⟨⟨h1, h2, h3⟩, h4⟩; exact ⟨h1, h2, fun d hd => hd.elim (h3 d) (fun e => e ▸ h4)⟩
  · intro v hv
    have hm := nUsed_markLits s.vm c
    simp only [SatInstance.hasVar, SatInstance.addClause, Cnf.addClause, List.mem_append, List.mem_singleton] at hv
    simp only [SatInstance.addClause]
    rcases hv with ⟨d, hd | rfl, l, hl, rfl⟩ | hv | hv
    · have := hk _ (.inl ⟨d, hd, l, hl, rfl⟩); omega
    · exact hm.2 l hl
    · have := hk _ (.inr (.inl hv)); omega
    · have := hk _ (.inr (.inr hv)); omega
  · intro v hv
    have hm := nUsed_markLits s.vm k.lits
    simp only [SatInstance.hasVar, SatInstance.addCard, List.mem_append, List.mem_singleton] at hv
    simp only [SatInstance.addCard]
    rcases hv with hv | ⟨d, hd | rfl, l, hl, rfl⟩ | hv
    · have := hk _ (.inl hv); omega
    · have := hk _ (.inr (.inl ⟨d, hd, l, hl, rfl⟩)); omega
    · exact hm.2 l hl
    · have := hk _ (.inr (.inr hv)); omega
  · intro v hv
    have hm := nUsed_markLits s.vm (p.lits.map (·.1))
    simp only [SatInstance.hasVar, SatInstance.addPb, List.mem_append, List.mem_singleton] at hv
    simp only [SatInstance.addPb]
    rcases hv with hv | hv | ⟨d, hd | rfl, l, hl, rfl⟩
    · have := hk _ (.inl hv); omega
    · have := hk _ (.inr (.inl hv)); omega
    · have := hk _ (.inr (.inr ⟨d, hd, l, hl, rfl⟩)); omega
    · exact hm.2 l.1 (List.mem_map.2 ⟨l, hl, rfl⟩)

/-- C17/C24: the methods adding implications add exactly the implication ... -/
theorem C17_add_implications (s : SatInstance VM) (p q : Lit) (ps qs : List Lit) (a : Asg) :
    ((s.addLitImplLit p q).sat a ↔ s.sat a ∧ (p.holds a = true → q.holds a = true)) ∧
    ((s.addLitImplClause p qs).sat a ↔ s.sat a ∧ (p.holds a = true → Clause.sat a qs)) ∧
    ((s.addLitImplCube p qs).sat a ↔ s.sat a ∧ (p.holds a = true → cubeSat a qs)) ∧
    ((s.addCubeImplLit ps q).sat a ↔ s.sat a ∧ (cubeSat a ps → q.holds a = true)) ∧
    ((s.addClauseImplLit ps q).sat a ↔ s.sat a ∧ (Clause.sat a ps → q.holds a = true)) ∧
    ((s.addCubeImplClause ps qs).sat a ↔ s.sat a ∧ (cubeSat a ps → Clause.sat a qs)) ∧
    ((s.addClauseImplClause ps qs).sat a ↔ s.sat a ∧ (Clause.sat a ps → Clause.sat a qs)) ∧
    ((s.addClauseImplCube ps qs).sat a ↔ s.sat a ∧ (Clause.sat a ps → cubeSat a qs)) ∧
    ((s.addCubeImplCube ps qs).sat a ↔ s.sat a ∧ (cubeSat a ps → cubeSat a qs)) := by
  obtain ⟨h1, h2, h3, h4⟩ := C24_single_clause a p q ps qs
  obtain ⟨h5, h6, h7, h8, h9⟩ := C24_multiple_clauses a p q ps qs
  have key : ∀ (f : ClauseSet) (P : Prop), (ClauseSet.sat a f ↔ P) → ∀ t : SatInstance VM,
      t.cnf = s.cnf ++ f → t.cards = s.cards → t.pbs = s.pbs → (t.sat a ↔ s.sat a ∧ P) := by
    intro f P hP t h1 h2 h3
    simp only [SatInstance.sat, h1, h2, h3, ClauseSet.sat_append, hP]
    constructor
    · rintro ⟨⟨h1, h2⟩, h3⟩; exact ⟨⟨h1, h3⟩, h2⟩
    · rintro ⟨⟨h1, h3⟩, h2⟩; exact ⟨⟨h1, h2⟩, h3⟩
  have one : ∀ (c : Clause) (P : Prop), (Clause.sat a c ↔ P) → (ClauseSet.sat a [c] ↔ P) := by
    intro c P h; simp only [ClauseSet.sat_cons, ClauseSet.sat_nil, and_true, h]
  exact ⟨key _ _ (one _ _ h1) _ rfl rfl rfl, key _ _ (one _ _ h2) _ rfl rfl rfl, key _ _ h5 _ rfl rfl rfl,
    key _ _ (one _ _ h3) _ rfl rfl rfl, key _ _ h6 _ rfl rfl rfl, key _ _ (one _ _ h4) _ rfl rfl rfl,
    key _ _ h7 _ rfl rfl rfl, key _ _ h8 _ rfl rfl rfl, key _ _ h9 _ rfl rfl rfl⟩

/-- ... and make all its variables known to the variable manager. -/
theorem C17_add_implications_known (s : SatInstance VM) (p q : Lit) (ps qs : List Lit) (hk : s.Known) :
    (s.addLitImplLit p q).Known ∧ (s.addLitImplClause p qs).Known ∧ (s.addLitImplCube p qs).Known ∧
    (s.addCubeImplLit ps q).Known ∧ (s.addClauseImplLit ps q).Known ∧ (s.addCubeImplClause ps qs).Known ∧
    (s.addClauseImplClause ps qs).Known ∧ (s.addClauseImplCube ps qs).Known ∧ (s.addCubeImplCube ps qs).Known := by
  have key : ∀ (xs ys : List Lit) (f : ClauseSet), (∀ c ∈ f, ∀ l ∈ c, ∃ k ∈ xs ++ ys, k.var = l.var) →
      ∀ t : SatInstance VM, t.cnf = s.cnf ++ f → t.cards = s.cards → t.pbs = s.pbs →
      t.vm = ManageVars.markLits (ManageVars.markLits s.vm xs) ys → t.Known := by
    intro xs ys f hf t h1 h2 h3 h4 v hv
    have hm := nUsed_markLits s.vm xs
    have hm' := nUsed_markLits (ManageVars.markLits s.vm xs) ys
    rw [h4]
    simp only [SatInstance.hasVar, h1, h2, h3, List.mem_append] at hv
    rcases hv with ⟨c, hc | hc, l, hl, rfl⟩ | hv | hv
    · have := hk _ (.inl ⟨c, hc, l, hl, rfl⟩); omega
    · obtain ⟨k, hk', he⟩ := hf c hc l hl
      rw [← he]
      rcases List.mem_append.1 hk' with h | h
      · have := hm.2 k h; omega
      · exact hm'.2 k h
    · have := hk _ (.inr (.inl hv)); omega
    · have := hk _ (.inr (.inr hv)); omega
  have hn : ∀ (ls : List Lit) (l : Lit), l ∈ ls.map Lit.neg → ∃ k ∈ ls, k.var = l.var := by
    intro ls l hl
    obtain ⟨k, hk, rfl⟩ := List.mem_map.1 hl
    exact ⟨k, hk, by simp⟩
  refine ⟨key [p] [q] [_] ?_ _ rfl rfl rfl rfl, key [p] qs [_] ?_ _ rfl rfl rfl rfl,
    key [p] qs _ ?_ _ rfl rfl rfl rfl, key ps [q] [_] ?_ _ rfl rfl rfl rfl, key ps [q] _ ?_ _ rfl rfl rfl rfl,
    key ps qs [_] ?_ _ rfl rfl rfl rfl, key ps qs _ ?_ _ rfl rfl rfl rfl, key ps qs _ ?_ _ rfl rfl rfl rfl,
    key ps qs _ ?_ _ rfl rfl rfl rfl⟩ <;> intro c hc l hl <;>
    simp only [Atomics.litImplLit, Atomics.litImplClause, Atomics.litImplCube, Atomics.cubeImplLit,
      Atomics.clauseImplLit, Atomics.cubeImplClause, Atomics.clauseImplClause, Atomics.clauseImplCube,
      Atomics.cubeImplCube, List.mem_singleton, List.mem_map, List.mem_flatMap] at hc
  · subst hc; simp at hl; rcases hl with rfl | rfl
    · exact ⟨p, by simp⟩
    · exact ⟨l, by simp⟩
  · subst hc; simp at hl; rcases hl with hl | rfl
    · exact ⟨l, by simp [hl]⟩
    · exact ⟨p, by simp⟩
  · obtain ⟨b, hb, rfl⟩ := hc; simp at hl; rcases hl with rfl | rfl
    · exact ⟨p, by simp⟩
    · exact ⟨l, by simp [hb]⟩
  · subst hc; rcases List.mem_append.1 hl with hl | hl
    · obtain ⟨k, h1, h2⟩ := hn _ _ hl; exact ⟨k, by simp [h1], h2⟩
    · simp at hl; exact ⟨q, by simp, by rw [hl]⟩
  · obtain ⟨b, hb, rfl⟩ := hc; simp at hl; rcases hl with rfl | rfl
    · exact ⟨b, by simp [hb]⟩
    · exact ⟨l, by simp⟩
  · subst hc; rcases List.mem_append.1 hl with hl | hl
    · exact ⟨l, by simp [hl]⟩
    · obtain ⟨k, h1, h2⟩ := hn _ _ hl; exact ⟨k, by simp [h1], h2⟩
  · obtain ⟨b, hb, rfl⟩ := hc; simp at hl; rcases hl with hl | rfl
    · exact ⟨l, by simp [hl]⟩
    · exact ⟨b, by simp [hb]⟩
  · obtain ⟨b, hb, d, hd, rfl⟩ := hc; simp at hl; rcases hl with rfl | rfl
    · exact ⟨b, by simp [hb]⟩
    · exact ⟨l, by simp [hd]⟩
  · obtain ⟨b, hb, rfl⟩ := hc; rcases List.mem_append.1 hl with hl | hl
    · obtain ⟨k, h1, h2⟩ := hn _ _ hl; exact ⟨k, by simp [h1], h2⟩
    · simp at hl; exact ⟨b, by simp [hb], by rw [hl]⟩

/-- C17: an instance made from a CNF has exactly its clauses and knows all its variables. -/
theorem C17_from_cnf (dflt : VM) (f : ClauseSet) :
    (∀ a, (SatInstance.ofCnf dflt f).sat a ↔ ClauseSet.sat a f) ∧ (SatInstance.ofCnf dflt f).Known := by
  refine ⟨fun a => by simp [SatInstance.ofCnf, SatInstance.sat], ?_⟩
  have hmono : ∀ (f : ClauseSet) (m : VM), ManageVars.nUsed m ≤ ManageVars.nUsed (f.foldl ManageVars.markLits m) := by
    intro f
    induction f with
    | nil => intro m; exact Nat.le_refl _
    | cons c f ih =>
      intro m
      rw [List.foldl_cons]
      exact Nat.le_trans (nUsed_markLits m c).1 (ih _)
  have hall : ∀ (f : ClauseSet) (m : VM), ∀ c ∈ f, ∀ l ∈ c,
      l.var < ManageVars.nUsed (f.foldl ManageVars.markLits m) := by
    intro f
    induction f with
    | nil => intro m c hc; cases hc
    | cons c f ih =>
      intro m d hd l hl
      rw [List.foldl_cons]
      rcases List.mem_cons.1 hd with rfl | hd
      · exact Nat.lt_of_lt_of_le ((nUsed_markLits m d).2 l hl) (hmono f _)
      · exact ih _ d hd l hl
  rintro v (⟨c, hc, l, hl, rfl⟩ | ⟨c, hc, _⟩ | ⟨c, hc, _⟩)
  · exact hall f dflt c hc l hl
  · cases hc
  · cases hc

end

example : (⟨[[x0, x1]], [.lb [x2] 1], [], ⟨3⟩⟩ : SatInstance BasicVM).Known := by
  intro v hv
  simp [SatInstance.hasVar, CardConstraint.lits] at hv
  simp only [ManageVars.nUsed]
  rcases hv with (h | h) | h <;> subst h <;> decide

/-- C17 is violated by `inst & cnf` / `Extend<Clause>`: the manager does not learn the variables, and
`new_var` returns a variable that occurs in the instance. -/
theorem C17_violated_extend_clauses :
    ∃ (s : SatInstance BasicVM) (cs : List Clause), s.Known ∧ ¬ (s.extendClauses cs).Known ∧
      (s.extendClauses cs).hasVar (ManageVars.newVar (s.extendClauses cs).vm).1 := by
  refine ⟨⟨[], [], [], ⟨0⟩⟩, [[x0]], ?_, ?_, ?_⟩
  · intro v hv; simp [SatInstance.hasVar] at hv
  · intro h
    have := h 0 (.inl ⟨[x0], by simp [SatInstance.extendClauses, Cnf.join], x0, by simp, rfl⟩)
    revert this; decide
  · exact .inl ⟨[x0], by simp [SatInstance.extendClauses, Cnf.join], x0, by simp, rfl⟩

/-! ### C18 -/

/-- C18: the PB constraints of `into_pbs` are together equivalent to the instance. -/
theorem C18_into_pbs {VM : Type} (s : SatInstance VM) (a : Asg) :
    ((∀ c ∈ s.intoPbs.1, PbConstraint.sat a c) ↔ s.sat a) ∧ s.intoPbs.2 = s.vm ∧
    (s.WF → ∀ c ∈ s.intoPbs.1, c.WF) := by
  have hcl : ∀ cl, (PbConstraint.ofClause cl).sat a ↔ Clause.sat a cl :=
    fun cl => (C13_of_clause_of_card cl (.ub [] 0) x0 a).1
  have hcd : ∀ c, (PbConstraint.ofCard c).sat a ↔ c.sat a :=
    fun c => (C13_of_clause_of_card [] c x0 a).2.1
  refine ⟨?_, rfl, ?_⟩
  · simp only [SatInstance.intoPbs, SatInstance.sat, List.mem_append, List.mem_map, ClauseSet.sat]
    constructor
    · intro h
      exact ⟨fun c hc => (hcl c).1 (h _ (.inr ⟨c, hc, rfl⟩)),
        fun c hc => (hcd c).1 (h _ (.inl (.inr ⟨c, hc, rfl⟩))), fun c hc => h c (.inl (.inl hc))⟩
    · rintro ⟨h1, h2, h3⟩ c ((hc | ⟨d, hd, rfl⟩) | ⟨d, hd, rfl⟩)
      · exact h3 c hc
      · exact (hcd d).2 (h2 d hd)
      · exact (hcl d).2 (h1 d hd)
  · intro hw c hc
    simp only [SatInstance.intoPbs, List.mem_append, List.mem_map] at hc
    rcases hc with (hc | ⟨d, hd, rfl⟩) | ⟨d, hd, rfl⟩
    · exact hw c hc
    · exact (C13_of_clause_of_card [] d x0 a).2.2.2
    · exact (C11_weight_sum (d.map fun l => (l, 1)) [] x0 1 (.ub [] 0 0) rfl).2.1

example : (SatInstance.intoPbs (VM := BasicVM) ⟨[[x0, x1.neg]], [.ub [x0, x1] 1], [.lb [(x2, 3)] 3 2], ⟨3⟩⟩).1 =
    [.lb [(x2, 3)] 3 2, .ub [(x0, 1), (x1, 1)] 2 1, .lb [(x0, 1), (x1.neg, 1)] 2 1] := by decide

/-! ### C49 -/

/-- `a` assigns all variables of the instance. -/
def SatInstance.assignedBy {VM : Type} (s : SatInstance VM) (a : Assignment) : Prop :=
  ∀ v, s.hasVar v → a.varValue v ≠ .dontCare

theorem litValue_ne_dontCare {a : Assignment} {l : Lit} (h : a.varValue l.var ≠ .dontCare) :
    a.litValue l ≠ .dontCare := by
  have h1 := (Assignment.litValue_true_iff a l)
  have h2 := (Assignment.litValue_false_iff a l)
  intro hd
  rw [hd] at h1 h2
  cases hv : a.varValue l.var <;> cases hn : l.isNeg <;> simp_all

/-- C49: on an assignment of all variables of the instance (with PB sums fitting `isize`), a clause,
cardinality or PB constraint of the instance evaluates to True iff it is satisfied and to False iff it is
not; hence `evaluate` decides satisfaction and `unsat_constraint` returns a violated constraint iff there
is one. -/
theorem C49_evaluate_total {VM : Type} (s : SatInstance VM) (a : Assignment) (b : Asg) (hb : a.completedBy b)
    (ht : s.assignedBy a) (hfit : ∀ c ∈ s.pbs, notFalseWeight a c.lits ≤ isizeMax) :
    (s.evaluate a = some .true ↔ s.sat b) ∧ (s.evaluate a = some .false ↔ ¬ s.sat b) ∧
    (s.unsatConstraint a = none ↔ s.sat b) ∧
    (∀ r, s.unsatConstraint a = some r → s.hasConstraint r ∧ ¬ r.sat b) := by
  have hcl : ∀ c ∈ s.cnf, (Clause.evaluate c a = .true ∧ Clause.sat b c) ∨
      (Clause.evaluate c a = .false ∧ ¬ Clause.sat b c) := by
    intro c hc
    obtain ⟨h1, h2, h3⟩ := C08_evaluate c a
    cases he : Clause.evaluate c a with
    | true =>
      obtain ⟨l, hl, hv⟩ := h1.1 he
      exact .inl ⟨rfl, l, hl, holds_of_litValue_true hb hv⟩
    | false =>
      refine .inr ⟨rfl, ?_⟩
      rintro ⟨l, hl, hh⟩
      rw [holds_of_litValue_false hb (h2.1 he l hl)] at hh; cases hh
    | dontCare =>
      obtain ⟨_, l, hl, hv⟩ := h3.1 he
      exact absurd hv (litValue_ne_dontCare (ht l.var (.inl ⟨c, hc, l, hl, rfl⟩)))
  have hcd : ∀ c ∈ s.cards, (c.evaluate a = .true ∧ c.sat b) ∨ (c.evaluate a = .false ∧ ¬ c.sat b) := by
    intro c hc
    obtain ⟨h1, h2, h3⟩ := C14_card_evaluate_partial c a
    have hall : ∀ l ∈ c.lits, a.litValue l ≠ .dontCare := fun l hl =>
      litValue_ne_dontCare (ht l.var (.inr (.inl ⟨c, hc, l, hl, rfl⟩)))
    cases he : c.evaluate a with
    | true => exact .inl ⟨rfl, h1 he b hb⟩
    | false => exact .inr ⟨rfl, h2 he (.inr (.inl hall)) b hb⟩
    | dontCare => exact absurd he (h3 hall)
  have hpb : ∀ c ∈ s.pbs, (c.evaluate a = some .true ∧ c.sat b) ∨ (c.evaluate a = some .false ∧ ¬ c.sat b) := by
    intro c hc
    obtain ⟨v, he, h1, h2, h3⟩ := C14_pb_evaluate_partial c a (hfit c hc)
    have hall : ∀ p ∈ c.lits, a.litValue p.1 ≠ .dontCare := fun p hp =>
      litValue_ne_dontCare (ht p.1.var (.inr (.inr ⟨c, hc, p, hp, rfl⟩)))
    cases v with
    | true => exact .inl ⟨he, h1 rfl b hb⟩
    | false => exact .inr ⟨he, h2 rfl (.inr (.inl hall)) b hb⟩
    | dontCare => exact absurd rfl (h3 hall)
  -- the values of the PB constraints as a list
  have hmap : ∀ ps : List PbConstraint, (∀ c ∈ ps, (c.evaluate a = some .true ∧ c.sat b) ∨
      (c.evaluate a = some .false ∧ ¬ c.sat b)) → ∃ ts, (ps.map fun p => p.evaluate a).mapM id = some ts ∧
      TernaryVal.dontCare ∉ ts ∧ (TernaryVal.false ∉ ts ↔ ∀ c ∈ ps, c.sat b) := by
    intro ps
    induction ps with
    | nil => intro _; exact ⟨[], rfl, by simp, by simp⟩
    | cons p ps ih =>
      intro h
      obtain ⟨ts, h1, h2, h3⟩ := ih fun c hc => h c (List.mem_cons_of_mem _ hc)
      rcases h p (List.mem_cons_self ..) with ⟨he, hs⟩ | ⟨he, hs⟩
      · refine ⟨.true :: ts, by simp [List.mapM_cons, he, h1], by simp [h2], ?_⟩
        simp [h3, hs]
      · refine ⟨.false :: ts, by simp [List.mapM_cons, he, h1], by simp [h2], ?_⟩
        simp [hs]
  have hcnf : (Cnf.evaluate s.cnf a = .true ∧ ClauseSet.sat b s.cnf) ∨
      (Cnf.evaluate s.cnf a = .false ∧ ¬ ClauseSet.sat b s.cnf) := by
    obtain ⟨h1, h2, h3⟩ := C15_evaluate s.cnf a
    cases he : Cnf.evaluate s.cnf a with
    | true =>
      refine .inl ⟨rfl, fun c hc => ?_⟩
      rcases hcl c hc with ⟨_, h⟩ | ⟨h, _⟩
      · exact h
      · rw [h1.1 he c hc] at h; cases h
    | false =>
      obtain ⟨c, hc, hf⟩ := h2.1 he
      refine .inr ⟨rfl, fun h => ?_⟩
      rcases hcl c hc with ⟨h', _⟩ | ⟨_, h'⟩
      · rw [hf] at h'; cases h'
      · exact h' (h c hc)
    | dontCare =>
      obtain ⟨_, c, hc, hd⟩ := h3.1 he
      rcases hcl c hc with ⟨h', _⟩ | ⟨h', _⟩ <;> rw [hd] at h' <;> cases h'
  obtain ⟨ts, hts, hnd, hnf⟩ := hmap s.pbs hpb
  have hcds : ∀ cs : List CardConstraint, (∀ c ∈ cs, (c.evaluate a = .true ∧ c.sat b) ∨
      (c.evaluate a = .false ∧ ¬ c.sat b)) → TernaryVal.dontCare ∉ cs.map (fun c => c.evaluate a) ∧
      (TernaryVal.false ∉ cs.map (fun c => c.evaluate a) ↔ ∀ c ∈ cs, c.sat b) := by
    intro cs h
    constructor
    · intro hm
      obtain ⟨c, hc, he⟩ := List.mem_map.1 hm
      rcases h c hc with ⟨h', _⟩ | ⟨h', _⟩ <;> rw [he] at h' <;> cases h'
    · constructor
      · intro hm c hc
        rcases h c hc with ⟨_, h'⟩ | ⟨h', _⟩
        · exact h'
        · exact absurd (List.mem_map.2 ⟨c, hc, h'⟩) hm
      · intro hall hm
        obtain ⟨c, hc, he⟩ := List.mem_map.1 hm
        rcases h c hc with ⟨h', _⟩ | ⟨_, h'⟩
        · rw [he] at h'; cases h'
        · exact h' (hall c hc)
  obtain ⟨hd2, hf2⟩ := hcds s.cards hcd
  have hev : s.evaluate a = some (Cnf.evalLoop .true
      (Cnf.evaluate s.cnf a :: (s.cards.map fun c => c.evaluate a) ++ ts)) := by
    simp only [SatInstance.evaluate, hts]
  rw [Cnf.evalLoop_spec _ _ (by simp)] at hev
  have hdc : TernaryVal.dontCare ∉ (Cnf.evaluate s.cnf a :: (s.cards.map fun c => c.evaluate a) ++ ts) := by
    intro hm
    rcases List.mem_append.1 hm with hm | hm
    · rcases List.mem_cons.1 hm with hm | hm
      · rcases hcnf with ⟨h', _⟩ | ⟨h', _⟩ <;> rw [← hm] at h' <;> cases h'
      · exact hd2 hm
    · exact hnd hm
  have hfs : TernaryVal.false ∉ (Cnf.evaluate s.cnf a :: (s.cards.map fun c => c.evaluate a) ++ ts) ↔ s.sat b := by
    rw [List.mem_append, List.mem_cons]
    constructor
    · intro h
      refine ⟨?_, hf2.1 fun hm => h (.inl (.inr hm)), hnf.1 fun hm => h (.inr hm)⟩
      rcases hcnf with ⟨_, h'⟩ | ⟨h', _⟩
      · exact h'
      · exact absurd (.inl (.inl h'.symm)) h
    · rintro ⟨h1, h2, h3⟩ ((h | h) | h)
      · rcases hcnf with ⟨h', _⟩ | ⟨_, h'⟩
        · rw [← h] at h'; cases h'
        · exact h' h1
      · exact hf2.2 h2 h
      · exact hnf.2 h3 h
  have hev1 : (s.evaluate a = some .true ↔ s.sat b) ∧ (s.evaluate a = some .false ↔ ¬ s.sat b) := by
    rw [hev, ← hfs]
    by_cases hm : TernaryVal.false ∈ (Cnf.evaluate s.cnf a :: (s.cards.map fun c => c.evaluate a) ++ ts)
    · rw [if_pos hm]; simp only [Option.some.injEq, reduceCtorEq, hm, not_true, not_false_iff, iff_self, and_self]
    · rw [if_neg hm, if_neg (by simp only [reduceCtorEq, false_or]; exact hdc)]
      simp only [Option.some.injEq, reduceCtorEq, hm, not_true, not_false_iff, iff_self, and_self]
  refine ⟨hev1.1, hev1.2, ?_⟩
  unfold SatInstance.unsatConstraint
  cases h1 : s.cnf.find? (fun c => decide (Clause.evaluate c a ≠ .true)) with
  | some c =>
    have hmem := List.mem_of_find?_eq_some h1
    have hp := List.find?_some h1
    have hns : ¬ Clause.sat b c := by
      rcases hcl c hmem with ⟨h', _⟩ | ⟨_, h'⟩
      · simp [h'] at hp
      · exact h'
    refine ⟨by simp only [reduceCtorEq, false_iff]; exact fun h => hns (h.1 c hmem), ?_⟩
    intro r hr; cases hr; exact ⟨hmem, hns⟩
  | none =>
    have hall1 : ClauseSet.sat b s.cnf := by
      intro c hc
      have := List.find?_eq_none.1 h1 c hc
      rcases hcl c hc with ⟨_, h'⟩ | ⟨h', _⟩
      · exact h'
      · simp [h'] at this
    cases h2 : s.cards.find? (fun c => decide (c.evaluate a ≠ .true)) with
    | some c =>
      have hmem := List.mem_of_find?_eq_some h2
      have hp := List.find?_some h2
      have hns : ¬ c.sat b := by
        rcases hcd c hmem with ⟨h', _⟩ | ⟨_, h'⟩
        · simp [h'] at hp
        · exact h'
      refine ⟨by simp only [reduceCtorEq, false_iff]; exact fun h => hns (h.2.1 c hmem), ?_⟩
      intro r hr; cases hr; exact ⟨hmem, hns⟩
    | none =>
      have hall2 : ∀ c ∈ s.cards, c.sat b := by
        intro c hc
        have := List.find?_eq_none.1 h2 c hc
        rcases hcd c hc with ⟨_, h'⟩ | ⟨h', _⟩
        · exact h'
        · simp [h'] at this
      cases h3 : s.pbs.find? (fun c => decide (c.evaluate a ≠ some .true)) with
      | some c =>
        have hmem := List.mem_of_find?_eq_some h3
        have hp := List.find?_some h3
        have hns : ¬ c.sat b := by
          rcases hpb c hmem with ⟨h', _⟩ | ⟨_, h'⟩
          · simp [h'] at hp
          · exact h'
        refine ⟨by simp only [reduceCtorEq, false_iff]; exact fun h => hns (h.2.2 c hmem), ?_⟩
        intro r hr; cases hr; exact ⟨hmem, hns⟩
      | none =>
        have hall3 : ∀ c ∈ s.pbs, c.sat b := by
          intro c hc
          have := List.find?_eq_none.1 h3 c hc
          rcases hpb c hc with ⟨_, h'⟩ | ⟨h', _⟩
          · exact h'
          · simp [h'] at this
        exact ⟨by simp only [true_iff]; exact ⟨hall1, hall2, hall3⟩, by intro r hr; cases hr⟩

example : SatInstance.evaluate (VM := BasicVM) ⟨[[x0, x1]], [.lb [x0, x1] 1], [.ub [(x1, 2)] 2 1], ⟨2⟩⟩
    ⟨[.true, .false]⟩ = some .true := by decide

/-- C49 on partial assignments: if an instance evaluates to True, every completion satisfies it. -/
theorem C49_evaluate_sound {VM : Type} (s : SatInstance VM) (a : Assignment)
    (hfit : ∀ c ∈ s.pbs, notFalseWeight a c.lits ≤ isizeMax) (h : s.evaluate a = some .true)
    (b : Asg) (hb : a.completedBy b) : s.sat b := by
  have hmap : ∀ ps : List PbConstraint, (∀ c ∈ ps, notFalseWeight a c.lits ≤ isizeMax) →
      ∃ ts, (ps.map fun p => p.evaluate a).mapM id = some ts ∧
        ((∀ t ∈ ts, t = TernaryVal.true) → ∀ c ∈ ps, c.sat b) := by
    intro ps
    induction ps with
    | nil => intro _; exact ⟨[], rfl, by simp⟩
    | cons p ps ih =>
      intro hf
      obtain ⟨ts, h1, h2⟩ := ih fun c hc => hf c (List.mem_cons_of_mem _ hc)
      obtain ⟨v, he, h3, _, _⟩ := C14_pb_evaluate_partial p a (hf p (List.mem_cons_self ..))
      refine ⟨v :: ts, by simp [List.mapM_cons, he, h1], fun ht c hc => ?_⟩
      rcases List.mem_cons.1 hc with rfl | hc
      · exact h3 (ht v (List.mem_cons_self ..)) b hb
      · exact h2 (fun t hm => ht t (List.mem_cons_of_mem _ hm)) c hc
  obtain ⟨ts, hts, h2⟩ := hmap s.pbs hfit
  have hev : s.evaluate a = some (Cnf.evalLoop .true
      (Cnf.evaluate s.cnf a :: (s.cards.map fun c => c.evaluate a) ++ ts)) := by
    simp only [SatInstance.evaluate, hts]
  rw [Cnf.evalLoop_spec _ _ (by simp)] at hev
  rw [h] at hev
  have hall : ∀ t ∈ (Cnf.evaluate s.cnf a :: (s.cards.map fun c => c.evaluate a) ++ ts), t = TernaryVal.true := by
    intro t ht
    cases t with
    | true => rfl
    | false => rw [if_pos ht] at hev; cases hev
    | dontCare =>
      by_cases hf : TernaryVal.false ∈ (Cnf.evaluate s.cnf a :: (s.cards.map fun c => c.evaluate a) ++ ts)
      · rw [if_pos hf] at hev; cases hev
      · rw [if_neg hf, if_pos (.inr ht)] at hev; cases hev
  refine ⟨fun c hc => ?_, fun c hc => ?_, fun c hc => ?_⟩
  · have h1 := (C15_evaluate s.cnf a).1.1 (hall _ (by simp)) c hc
    obtain ⟨l, hl, hv⟩ := (C08_evaluate c a).1.1 h1
    exact ⟨l, hl, holds_of_litValue_true hb hv⟩
  · exact (C14_card_evaluate_partial c a).1
      (hall _ (List.mem_append_left _ (List.mem_cons_of_mem _ (List.mem_map.2 ⟨c, hc, rfl⟩)))) b hb
  · exact h2 (fun t ht => hall t (List.mem_append_right _ ht)) c hc

example : (SatInstance.mk (VM := BasicVM) [[x0, x1]] [.ub [x0.neg, x1.neg] 1] [] ⟨2⟩).evaluate ⟨[.true]⟩ =
    some .true := by decide

end RustSat
