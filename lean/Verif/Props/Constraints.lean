import Verif.Lemmas.Constraints
/-
Property theorems C09–C14 (cardinality and pseudo-Boolean constraints).
-/
namespace RustSat

private def x0 : Lit := Lit.mk' 0 false
private def x1 : Lit := Lit.mk' 1 false
private def x2 : Lit := Lit.mk' 2 false

/-! ### C09 -/

/-- C09: inverting an upper bound constraint whose bound does not exceed its length gives an equivalent
lower bound constraint. (`_partial`: for larger bounds the subtraction underflows, see
`C09_violated_invert_panics`.) -/
theorem C09_invert_ub_partial (l : List Lit) (b : Nat) (h : b ≤ l.length) :
    ∃ c, CardConstraint.invertUb l b = some c ∧ (∃ l' b', c = .lb l' b') ∧
      ∀ a, c.sat a ↔ (CardConstraint.ub l b).sat a := by
  refine ⟨_, if_pos h, ⟨_, _, rfl⟩, fun a => ?_⟩
  have := countTrue_map_neg a l
  simp only [CardConstraint.sat]; omega

/-- C09: same for lower bound constraints. -/
theorem C09_invert_lb_partial (l : List Lit) (b : Nat) (h : b ≤ l.length) :
    ∃ c, CardConstraint.invertLb l b = some c ∧ (∃ l' b', c = .ub l' b') ∧
      ∀ a, c.sat a ↔ (CardConstraint.lb l b).sat a := by
  refine ⟨_, if_pos h, ⟨_, _, rfl⟩, fun a => ?_⟩
  have := countTrue_map_neg a l
  simp only [CardConstraint.sat]; omega

example : (2 : Nat) ≤ [x0, x1, x2.neg].length ∧
    CardConstraint.invertUb [x0, x1, x2.neg] 2 = some (.lb [x0.neg, x1.neg, x2] 1) := by decide

/-- C09 is violated: `invert` panics (subtraction underflow) for the legal constraint `x0 <= 2`. -/
theorem C09_violated_invert_panics :
    CardConstraint.invertUb [x0] 2 = none ∧ CardConstraint.invertLb [x0] 2 = none := by decide

/-- C09: splitting an equality gives a lower and an upper bound constraint that together mean the same. -/
theorem C09_split_eq (l : List Lit) (b : Nat) (a : Asg) :
    (CardConstraint.splitEq l b).1.sat a ∧ (CardConstraint.splitEq l b).2.sat a ↔
      (CardConstraint.eq l b).sat a := by
  simp only [CardConstraint.splitEq, CardConstraint.sat]; omega

/-- C09: `into_clause` succeeds exactly when `is_clause` holds, never panics, and the clause is equivalent. -/
theorem C09_into_clause (c : CardConstraint) :
    (c.isClause = true → ∃ cl, c.intoClause = .ok cl ∧ ∀ a, Clause.sat a cl ↔ c.sat a) ∧
    (c.isClause = false → c.intoClause = .err ()) := by
  refine ⟨fun h => ?_, fun h => by simp [CardConstraint.intoClause, h]⟩
  cases c with
  | ub l b =>
    refine ⟨l.map Lit.neg, by simp [CardConstraint.intoClause, h], fun a => ?_⟩
    have := countTrue_map_neg a l
    simp only [CardConstraint.isClause, beq_iff_eq] at h
    simp only [CardConstraint.sat, Clause.sat_iff_pos]; omega
  | lb l b =>
    refine ⟨l, by simp [CardConstraint.intoClause, h], fun a => ?_⟩
    simp only [CardConstraint.isClause, beq_iff_eq] at h
    simp only [CardConstraint.sat, Clause.sat_iff_pos]; omega
  | eq l b => simp [CardConstraint.isClause] at h

example : (CardConstraint.ub [x0, x1, x2] 2).intoClause = .ok [x0.neg, x1.neg, x2.neg] := by decide

/-- C09: `normalize` keeps kind, bound and the literals with multiplicity (hence the meaning). -/
theorem C09_normalize (c : CardConstraint) (a : Asg) :
    (c.normalize.sat a ↔ c.sat a) ∧ c.normalize.lits.Perm c.lits ∧ c.normalize.bound = c.bound := by
  have hp : ∀ l : List Lit, (CardConstraint.normLits l).Perm l := by
    intro l; unfold CardConstraint.normLits
    split
    · exact List.Perm.refl _
    · exact List.mergeSort_perm l Lit.le
  cases c <;> simp [CardConstraint.normalize, CardConstraint.sat, CardConstraint.lits, CardConstraint.bound,
    hp, countTrue_perm a (hp _)]

/-- C09: adding literals and changing the bound denote what they say. -/
theorem C09_add_set_bound (l ls : List Lit) (b b' : Nat) (a : Asg) :
    (((CardConstraint.ub l b).add ls).sat a ↔ countTrue a l + countTrue a ls ≤ b) ∧
    (((CardConstraint.lb l b).add ls).sat a ↔ b ≤ countTrue a l + countTrue a ls) ∧
    (((CardConstraint.eq l b).add ls).sat a ↔ countTrue a l + countTrue a ls = b) ∧
    (((CardConstraint.ub l b).setBound b').sat a ↔ countTrue a l ≤ b') ∧
    (((CardConstraint.lb l b).setBound b').sat a ↔ b' ≤ countTrue a l) ∧
    (((CardConstraint.eq l b).setBound b').sat a ↔ countTrue a l = b') := by
  simp [CardConstraint.add, CardConstraint.setBound, CardConstraint.sat]

/-- C09: a clause or unit as cardinality constraint. -/
theorem C09_of_clause (c : Clause) (l : Lit) (a : Asg) :
    ((CardConstraint.ofClause c).sat a ↔ Clause.sat a c) ∧
    ((CardConstraint.newUnit l).sat a ↔ l.holds a = true) := by
  refine ⟨?_, ?_⟩
  · simp only [CardConstraint.ofClause, CardConstraint.sat, Clause.sat_iff_pos]
  · simp only [CardConstraint.newUnit, CardConstraint.sat]
    cases h : l.holds a <;> simp [h]

/-! ### C10 -/

/-- C10: a constraint classified as tautology is satisfied by every assignment. -/
theorem C10_is_tautology (c : CardConstraint) (h : c.isTautology = true) (a : Asg) : c.sat a := by
  cases c with
  | ub l b =>
    have := countTrue_le_length a l
    simp [CardConstraint.isTautology] at h; simp only [CardConstraint.sat]; omega
  | lb l b => simp [CardConstraint.isTautology] at h; simp [CardConstraint.sat, h]
  | eq l b => simp [CardConstraint.isTautology] at h

/-- C10: a constraint classified as unsatisfiable has no satisfying assignment. -/
theorem C10_is_unsat (c : CardConstraint) (h : c.isUnsat = true) (a : Asg) : ¬ c.sat a := by
  cases c with
  | ub l b => simp [CardConstraint.isUnsat] at h
  | lb l b | eq l b =>
    have := countTrue_le_length a l
    simp [CardConstraint.isUnsat] at h; simp only [CardConstraint.sat]; omega

/-- C10: a constraint classified as positive assignment holds exactly if all its literals are true. -/
theorem C10_is_positive_assignment (c : CardConstraint) (h : c.isPositiveAssignment = true) (a : Asg) :
    c.sat a ↔ ∀ l ∈ c.lits, l.holds a = true := by
  cases c with
  | ub l b => simp [CardConstraint.isPositiveAssignment] at h
  | lb l b | eq l b =>
    have h1 := countTrue_le_length a l
    have h2 := countTrue_eq_length_iff a l
    simp [CardConstraint.isPositiveAssignment] at h
    simp only [CardConstraint.sat, CardConstraint.lits, ← h2]; omega

/-- C10: a constraint classified as negative assignment holds exactly if all its literals are false. -/
theorem C10_is_negative_assignment (c : CardConstraint) (h : c.isNegativeAssignment = true) (a : Asg) :
    c.sat a ↔ ∀ l ∈ c.lits, l.holds a = false := by
  cases c with
  | lb l b => simp [CardConstraint.isNegativeAssignment] at h
  | ub l b | eq l b =>
    have h2 := countTrue_eq_zero_iff a l
    simp [CardConstraint.isNegativeAssignment] at h
    simp only [CardConstraint.sat, CardConstraint.lits, ← h2]; omega

/-- C10: conversely, for literals on distinct variables the classification as tautology / unsatisfiable
is complete for bound constraints: a `Ub`/`Lb` constraint that every (no) assignment satisfies is
recognised. -/
theorem C10_classification_complete (l : List Lit) (b : Nat)
    (hd : l.Pairwise fun x y => x.var ≠ y.var) :
    ((∀ a, (CardConstraint.ub l b).sat a) → (CardConstraint.ub l b).isTautology = true) ∧
    ((∀ a, (CardConstraint.lb l b).sat a) → (CardConstraint.lb l b).isTautology = true) ∧
    ((∀ a, ¬ (CardConstraint.lb l b).sat a) → (CardConstraint.lb l b).isUnsat = true) ∧
    (∃ a, (CardConstraint.ub l b).sat a) := by
  have mk : ∀ s : Bool, ∃ a : Asg, ∀ x ∈ l, x.holds a = s := by
    intro s
    induction l with
    | nil => exact ⟨fun _ => false, by simp⟩
    | cons y ys ih =>
      obtain ⟨a, ha⟩ := ih hd.tail
      refine ⟨fun v => if v = y.var then (if y.isNeg then !s else s) else a v, ?_⟩
      intro x hx
      rcases List.mem_cons.1 hx with rfl | hx
      · cases hn : x.isNeg <;> simp [Lit.holds, hn]
      · have hne := List.rel_of_pairwise_cons hd hx
        rw [← ha x hx]
        apply Lit.holds_congr
        rw [if_neg (fun e => hne e.symm)]
  obtain ⟨a1, h1⟩ := mk true
  obtain ⟨a0, h0⟩ := mk false
  have e1 := (countTrue_eq_length_iff a1 l).2 h1
  have e0 := (countTrue_eq_zero_iff a0 l).2 h0
  refine ⟨fun h => ?_, fun h => ?_, fun h => ?_, a0, ?_⟩
  · have := h a1; simp only [CardConstraint.sat] at this; simp [CardConstraint.isTautology]; omega
  · have := h a0; simp only [CardConstraint.sat] at this; simp [CardConstraint.isTautology]; omega
  · have := h a1; simp only [CardConstraint.sat] at this; simp [CardConstraint.isUnsat]; omega
  · simp only [CardConstraint.sat]; omega

example : (CardConstraint.ub [x0, x1] 2).isTautology = true ∧ (CardConstraint.lb [x0, x1] 3).isUnsat = true ∧
    (CardConstraint.eq [x0, x1] 2).isPositiveAssignment = true ∧
    (CardConstraint.ub [x0, x1] 0).isNegativeAssignment = true := by decide

/-! ### C11 -/

/-- C11: the constructors on signed weights denote the signed linear (in)equality. -/
theorem C11_new_signed (ls : List (Lit × Int)) (b : Int) (a : Asg) :
    ((PbConstraint.newUb ls b).sat a ↔ isum a ls ≤ b) ∧
    ((PbConstraint.newLb ls b).sat a ↔ b ≤ isum a ls) ∧
    ((PbConstraint.newEq ls b).sat a ↔ isum a ls = b) := by
  have h := (PbConstraint.convertInputLits_spec ls a).1
  simp only [PbConstraint.newUb, PbConstraint.newLb, PbConstraint.newEq]
  revert h
  rcases PbConstraint.convertInputLits ls with ⟨x, y, z⟩
  simp only [PbConstraint.sat]
  intro h
  refine ⟨?_, ?_, ?_⟩ <;> omega

/-- C11: the constructors on unsigned weights denote the linear (in)equality. -/
theorem C11_new_unsigned (ls : List (Lit × Nat)) (b : Int) (a : Asg) :
    ((PbConstraint.newUbUnsigned ls b).sat a ↔ (wsum a ls : Int) ≤ b) ∧
    ((PbConstraint.newLbUnsigned ls b).sat a ↔ b ≤ (wsum a ls : Int)) ∧
    ((PbConstraint.newEqUnsigned ls b).sat a ↔ (wsum a ls : Int) = b) := by
  simp [PbConstraint.newUbUnsigned, PbConstraint.newLbUnsigned, PbConstraint.newEqUnsigned, PbConstraint.sat]

/-- C11: the cached weight sum is the sum of the weights, after every constructor and every modification. -/
theorem C11_weight_sum (ls : List (Lit × Int)) (us : List (Lit × Nat)) (l : Lit) (b : Int) (c : PbConstraint)
    (hc : c.WF) :
    (PbConstraint.newUb ls b).WF ∧ (PbConstraint.newLb ls b).WF ∧ (PbConstraint.newEq ls b).WF ∧
    (PbConstraint.newUbUnsigned us b).WF ∧ (PbConstraint.newLbUnsigned us b).WF ∧
    (PbConstraint.newEqUnsigned us b).WF ∧ (PbConstraint.newUnit l).WF ∧
    (c.add ls).WF ∧ (c.setBound b).WF ∧ c.normalize.WF ∧
    (∀ l ws b, c = .ub l ws b → (PbConstraint.invertUb l ws b).WF) ∧
    (∀ l ws b, c = .lb l ws b → (PbConstraint.invertLb l ws b).WF) ∧
    (∀ l ws b, c = .eq l ws b → (PbConstraint.splitEq l ws b).1.WF ∧ (PbConstraint.splitEq l ws b).2.WF) := by
  have h := (PbConstraint.convertInputLits_spec ls (fun _ => false)).2
  have hn := fun x => (PbConstraint.normLits_spec x).2.1
  simp only [PbConstraint.newUb, PbConstraint.newLb, PbConstraint.newEq, PbConstraint.add]
  revert h
  rcases PbConstraint.convertInputLits ls with ⟨x, y, z⟩
  simp only
  intro h
  refine ⟨h, h, h, PbConstraint.sumWeights_eq us, PbConstraint.sumWeights_eq us, PbConstraint.sumWeights_eq us,
    rfl, ?_, ?_, ?_, ?_, ?_, ?_⟩
  · cases c <;> simp_all [PbConstraint.WF, PbConstraint.weightSum, PbConstraint.lits]
  · cases c <;> simp_all [PbConstraint.WF, PbConstraint.weightSum, PbConstraint.lits, PbConstraint.setBound]
  · cases c <;> simp_all [PbConstraint.WF, PbConstraint.weightSum, PbConstraint.lits, PbConstraint.normalize]
  · rintro l ws b rfl
    simp_all [PbConstraint.WF, PbConstraint.weightSum, PbConstraint.lits, PbConstraint.invertUb]
  · rintro l ws b rfl
    simp_all [PbConstraint.WF, PbConstraint.weightSum, PbConstraint.lits, PbConstraint.invertLb]
  · rintro l ws b rfl
    exact ⟨hc, hc⟩

/-- C11: adding signed weights adds them to the sum; setting the bound replaces it. -/
theorem C11_add_set_bound (c : PbConstraint) (ls : List (Lit × Int)) (b' : Int) (a : Asg) :
    ((c.add ls).sat a ↔ match c with
      | .ub l _ b => (wsum a l : Int) + isum a ls ≤ b
      | .lb l _ b => b ≤ (wsum a l : Int) + isum a ls
      | .eq l _ b => (wsum a l : Int) + isum a ls = b) ∧
    ((c.setBound b').sat a ↔ match c with
      | .ub l _ _ => (wsum a l : Int) ≤ b'
      | .lb l _ _ => b' ≤ (wsum a l : Int)
      | .eq l _ _ => (wsum a l : Int) = b') := by
  have h := (PbConstraint.convertInputLits_spec ls a).1
  simp only [PbConstraint.add]
  revert h
  rcases PbConstraint.convertInputLits ls with ⟨x, y, z⟩
  intro h
  cases c <;> simp only [PbConstraint.sat, PbConstraint.setBound, wsum_append] <;>
    refine ⟨?_, trivial⟩ <;> simp only at h <;> omega

/-- C11: inverting between upper and lower bound form and splitting an equality preserve the meaning
(given the cached weight sum is right). -/
theorem C11_invert_split (l : List (Lit × Nat)) (b : Int) (a : Asg) :
    ((PbConstraint.invertUb l (wtotal l) b).sat a ↔ (PbConstraint.ub l (wtotal l) b).sat a) ∧
    ((PbConstraint.invertLb l (wtotal l) b).sat a ↔ (PbConstraint.lb l (wtotal l) b).sat a) ∧
    ((PbConstraint.splitEq l (wtotal l) b).1.sat a ∧ (PbConstraint.splitEq l (wtotal l) b).2.sat a ↔
      (PbConstraint.eq l (wtotal l) b).sat a) := by
  have h := wsum_map_neg a l
  simp only [PbConstraint.invertUb, PbConstraint.invertLb, PbConstraint.splitEq, PbConstraint.sat]
  refine ⟨?_, ?_, ?_⟩ <;> omega

example : PbConstraint.newLb [(x0, -2), (x1, 3)] 1 = .lb [(x0.neg, 2), (x1, 3)] 5 3 := by decide

/-! ### C12 -/

/-- C12: classified tautologies are satisfied by every assignment. -/
theorem C12_is_tautology (c : PbConstraint) (hw : c.WF) (h : c.isTautology = true) (a : Asg) : c.sat a := by
  cases c with
  | ub l ws b =>
    have := wsum_le_wtotal a l
    simp only [PbConstraint.WF, PbConstraint.weightSum, PbConstraint.lits] at hw
    simp only [PbConstraint.isTautology] at h
    simp only [PbConstraint.sat]
    split at h
    · cases h
    · simp at h; omega
  | lb l ws b => simp [PbConstraint.isTautology] at h; simp only [PbConstraint.sat]; omega
  | eq l ws b => simp [PbConstraint.isTautology] at h

/-- C12: classified unsatisfiable constraints have no satisfying assignment. -/
theorem C12_is_unsat (c : PbConstraint) (hw : c.WF) (h : c.isUnsat = true) (a : Asg) : ¬ c.sat a := by
  cases c with
  | ub l ws b => simp [PbConstraint.isUnsat] at h; simp only [PbConstraint.sat]; omega
  | lb l ws b =>
    have := wsum_le_wtotal a l
    simp only [PbConstraint.WF, PbConstraint.weightSum, PbConstraint.lits] at hw
    simp only [PbConstraint.isUnsat] at h
    simp only [PbConstraint.sat]
    split at h
    · cases h
    · simp at h; omega
  | eq l ws b =>
    have := wsum_le_wtotal a l
    simp only [PbConstraint.WF, PbConstraint.weightSum, PbConstraint.lits] at hw
    simp only [PbConstraint.isUnsat] at h
    simp only [PbConstraint.sat]
    split at h
    · omega
    · simp at h; omega

/-- C12: classified positive assignments hold exactly if all literals are true. For lower bounds no
assumption on the weights is needed, for equalities they must be positive. -/
theorem C12_is_positive_assignment (c : PbConstraint) (hw : c.WF)
    (hp : c.PosWeights ∨ ∃ l ws b, c = .lb l ws b) (h : c.isPositiveAssignment = true) (a : Asg) :
    c.sat a ↔ ∀ p ∈ c.lits, p.1.holds a = true := by
  cases c with
  | ub l ws b => simp [PbConstraint.isPositiveAssignment] at h
  | lb l ws b =>
    simp only [PbConstraint.WF, PbConstraint.weightSum, PbConstraint.lits] at hw
    have hb : ¬ b < 0 := by
      intro hb; simp [PbConstraint.isPositiveAssignment, hb] at h
    have hle : b.natAbs ≤ ws := by
      apply Classical.byContradiction; intro hle
      simp [PbConstraint.isPositiveAssignment, PbConstraint.isUnsat, hb, hle] at h
    have h : b.natAbs + PbConstraint.minCoeff l > ws := by
      simp [PbConstraint.isPositiveAssignment, PbConstraint.isUnsat, hb] at h
      omega
    · simp only [PbConstraint.sat, PbConstraint.lits]
      constructor
      · intro hs p hpm
        cases hh : p.1.holds a
        · have h1 := wsum_add_le_wtotal a hpm hh
          have h2 := PbConstraint.minCoeff_le hpm
          omega
        · rfl
      · intro hall
        rw [wsum_eq_wtotal_of_all a hall]; omega
  | eq l ws b =>
    have hp' : ∀ p ∈ l, 0 < p.2 := by
      rcases hp with hp | ⟨_, _, _, e⟩
      · exact hp
      · cases e
    simp only [PbConstraint.WF, PbConstraint.weightSum, PbConstraint.lits] at hw
    simp only [PbConstraint.isPositiveAssignment] at h
    split at h
    · cases h
    · simp only [beq_iff_eq] at h
      simp only [PbConstraint.sat, PbConstraint.lits]
      constructor
      · intro hs p hpm
        cases hh : p.1.holds a
        · have h1 := wsum_add_le_wtotal a hpm hh
          have h2 := hp' p hpm
          omega
        · rfl
      · intro hall
        rw [wsum_eq_wtotal_of_all a hall]; omega

/-- C12: classified negative assignments hold exactly if all literals are false. -/
theorem C12_is_negative_assignment (c : PbConstraint)
    (hp : c.PosWeights ∨ ∃ l ws b, c = .ub l ws b) (h : c.isNegativeAssignment = true) (a : Asg) :
    c.sat a ↔ ∀ p ∈ c.lits, p.1.holds a = false := by
  cases c with
  | lb l ws b => simp [PbConstraint.isNegativeAssignment] at h
  | ub l ws b =>
    have hc : ¬ b < 0 := by
      intro hb; simp [PbConstraint.isNegativeAssignment, PbConstraint.isUnsat, hb] at h
    have h : PbConstraint.minCoeff l > b.natAbs := by
      simp [PbConstraint.isNegativeAssignment, PbConstraint.isUnsat, hc] at h
      omega
    · simp only [PbConstraint.sat, PbConstraint.lits]
      constructor
      · intro hs p hpm
        cases hh : p.1.holds a
        · rfl
        · have h1 := wsum_mem_le a hpm hh
          have h2 := PbConstraint.minCoeff_le hpm
          omega
      · intro hall
        rw [wsum_eq_zero_of_none a hall]; omega
  | eq l ws b =>
    have hp' : ∀ p ∈ l, 0 < p.2 := by
      rcases hp with hp | ⟨_, _, _, e⟩
      · exact hp
      · cases e
    simp only [PbConstraint.isNegativeAssignment] at h
    split at h
    · cases h
    · simp only [beq_iff_eq] at h
      simp only [PbConstraint.sat, PbConstraint.lits]
      constructor
      · intro hs p hpm
        cases hh : p.1.holds a
        · rfl
        · have h1 := wsum_mem_le a hpm hh
          have h2 := hp' p hpm
          omega
      · intro hall
        rw [wsum_eq_zero_of_none a hall]; omega

/-- C12: `is_card` holds exactly if there is at least one literal and all weights are equal. -/
theorem C12_is_card (c : PbConstraint) :
    c.isCard = true ↔ c.lits ≠ [] ∧ ∃ w, ∀ p ∈ c.lits, p.2 = w := by
  unfold PbConstraint.isCard
  cases h : PbConstraint.findUnitWeight c.lits with
  | some w =>
    obtain ⟨h1, h2⟩ := PbConstraint.findUnitWeight_some h
    simp only [Option.isSome_some, true_iff]; exact ⟨h1, w, h2⟩
  | none =>
    simp only [Option.isSome_none, Bool.false_eq_true, false_iff]
    rintro ⟨h1, w, h2⟩
    rcases PbConstraint.findUnitWeight_none h with e | ⟨p, hp, q, hq, hne⟩
    · exact h1 e
    · exact hne ((h2 p hp).trans (h2 q hq).symm)

example : (PbConstraint.lb [(x0, 2), (x1, 3)] 5 4).WF ∧
    (PbConstraint.lb [(x0, 2), (x1, 3)] 5 4).isPositiveAssignment = true ∧
    (PbConstraint.ub [(x0, 2), (x1, 3)] 5 1).isNegativeAssignment = true ∧
    (PbConstraint.ub [(x0, 2), (x1, 3)] 5 5).isTautology = true ∧
    (PbConstraint.eq [(x0, 2), (x1, 3)] 5 6).isUnsat = true ∧
    (PbConstraint.eq [(x0, 2), (x1, 3)] 5 5).isPositiveAssignment = true := by
  refine ⟨rfl, ?_⟩; decide

/-- The positivity assumption of C12 is needed: with a zero weight, an equality is classified as positive
assignment although it does not force the literal. -/
theorem C12_zero_weight_witness :
    (PbConstraint.eq [(x0, 0), (x1, 1)] 1 1).isPositiveAssignment = true ∧
    (PbConstraint.eq [(x0, 0), (x1, 1)] 1 1).sat (fun v => v == 1) ∧ x0.holds (fun v => v == 1) = false := by
  refine ⟨by decide, ?_, by decide⟩
  simp only [PbConstraint.sat]; decide

/-! ### C13 -/

/-- C13: `normalize` preserves the meaning, and its result lists strictly increasing literals. -/
theorem C13_normalize (c : PbConstraint) (a : Asg) :
    (c.normalize.sat a ↔ c.sat a) ∧ (c.normalize.lits.Pairwise fun p q => p.1.lidx < q.1.lidx) ∧
    c.normalize.bound = c.bound ∧ c.normalize.weightSum = c.weightSum := by
  have h1 := fun l => (PbConstraint.normLits_spec l).1 a
  have h2 := fun l => (PbConstraint.normLits_spec l).2.2
  cases c <;> simp [PbConstraint.normalize, PbConstraint.sat, PbConstraint.lits, PbConstraint.bound,
    PbConstraint.weightSum, h1, h2]

/-- C13: equality of normalised constraints implies equivalence; the documented converse ("comparing two
normalized constraints checks their logical equivalence") does not hold. -/
theorem C13_normalize_equal_sound (c d : PbConstraint) (h : c.normalize = d.normalize) (a : Asg) :
    c.sat a ↔ d.sat a := by
  rw [← (C13_normalize c a).1, ← (C13_normalize d a).1, h]

theorem C13_violated_normalize_complete :
    (∀ a, (PbConstraint.lb [(x0, 1)] 1 1).sat a ↔ (PbConstraint.lb [(x0, 2)] 2 1).sat a) ∧
    (PbConstraint.lb [(x0, 1)] 1 1).normalize ≠ (PbConstraint.lb [(x0, 2)] 2 1).normalize := by
  refine ⟨fun a => ?_, by decide⟩
  simp only [PbConstraint.sat, wsum_cons, wsum_nil]
  cases x0.holds a <;> simp

/-- C13: when `into_card_constr` returns a cardinality constraint it is equivalent; it reports `Tautology` /
`Unsat` only for constraints that are satisfied by all / no assignments; with positive weights it never
panics and returns `NotACard` only if not all weights are equal (or there are no literals). -/
theorem C13_into_card_constr (c : PbConstraint) (hw : c.WF) :
    (∀ d, c.intoCardConstr = .ok d → ∀ a, d.sat a ↔ c.sat a) ∧
    (c.intoCardConstr = .err .tautology → ∀ a, c.sat a) ∧
    (c.intoCardConstr = .err .unsat → ∀ a, ¬ c.sat a) ∧
    (c.intoCardConstr = .err .notACard → c.isCard = false) ∧
    (c.PosWeights → c.intoCardConstr ≠ .panic) := by
  by_cases ht : c.isTautology = true
  · simp [PbConstraint.intoCardConstr, ht]; exact C12_is_tautology c hw ht
  by_cases hu : c.isUnsat = true
  · simp [PbConstraint.intoCardConstr, ht, hu]; exact C12_is_unsat c hw hu
  generalize hr' : c.intoCardConstr = r
  unfold PbConstraint.intoCardConstr at hr'
  rw [if_neg ht, if_neg hu] at hr'
  cases c with
  | ub l ws b =>
    simp only at hr'
    cases hf : PbConstraint.findUnitWeight l with
    | none =>
      simp only [hf] at hr'; subst hr'
      simp [PbConstraint.isCard, PbConstraint.lits, hf]
    | some uw =>
      obtain ⟨hne, hall⟩ := PbConstraint.findUnitWeight_some hf
      cases uw with
      | zero =>
        simp only [hf] at hr'; subst hr'
        simp
        intro hp
        obtain ⟨p, ps, rfl⟩ := List.exists_cons_of_ne_nil hne
        have := hp p (by simp [PbConstraint.lits]); have := hall p (by simp); omega
      | succ uw =>
        simp only [hf] at hr'; subst hr'
        refine ⟨?_, by simp, by simp, by simp, by simp⟩
        intro d hd a; cases hd
        simp only [PbConstraint.isUnsat, decide_eq_true_eq] at hu
        simp only [CardConstraint.sat, PbConstraint.sat, wsum_const a _ hall]
        rw [Nat.le_div_iff_mul_le (by omega), Nat.mul_comm]; omega
  | lb l ws b =>
    simp only at hr'
    cases hf : PbConstraint.findUnitWeight l with
    | none =>
      simp only [hf] at hr'; subst hr'
      simp [PbConstraint.isCard, PbConstraint.lits, hf]
    | some uw =>
      obtain ⟨hne, hall⟩ := PbConstraint.findUnitWeight_some hf
      cases uw with
      | zero =>
        simp only [hf] at hr'; subst hr'
        simp
        intro hp
        obtain ⟨p, ps, rfl⟩ := List.exists_cons_of_ne_nil hne
        have := hp p (by simp [PbConstraint.lits]); have := hall p (by simp); omega
      | succ uw =>
        simp only [hf] at hr'; subst hr'
        refine ⟨?_, by simp, by simp, by simp, by simp⟩
        intro d hd a; cases hd
        simp only [PbConstraint.isTautology, decide_eq_true_eq] at ht
        simp only [CardConstraint.sat, PbConstraint.sat, wsum_const a _ hall]
        generalize countTrue a (l.map (·.1)) = n
        have hdm := Nat.div_add_mod b.natAbs (uw + 1)
        have hlt := Nat.mod_lt b.natAbs (show uw + 1 > 0 by omega)
        generalize hq : b.natAbs / (uw + 1) = q at *
        generalize hr : b.natAbs % (uw + 1) = r at *
        have key : b ≤ (((uw + 1) * n : Nat) : Int) ↔ (uw + 1) * q + r ≤ (uw + 1) * n := by omega
        rw [key]
        by_cases hr0 : r = 0
        · subst hr0
          rw [if_neg (by simp)]
          simp only [Nat.add_zero]
          exact (Nat.mul_le_mul_left_iff (by omega)).symm
        · rw [if_pos hr0]
          constructor
          · intro h
            have := Nat.mul_le_mul_left (uw + 1) h
            rw [Nat.mul_add] at this; omega
          · intro h
            have : (uw + 1) * q < (uw + 1) * n := by omega
            have := Nat.lt_of_mul_lt_mul_left this
            omega
  | eq l ws b =>
    simp only at hr'
    cases hf : PbConstraint.findUnitWeight l with
    | none =>
      simp only [hf] at hr'; subst hr'
      simp [PbConstraint.isCard, PbConstraint.lits, hf]
    | some uw =>
      obtain ⟨hne, hall⟩ := PbConstraint.findUnitWeight_some hf
      cases uw with
      | zero =>
        simp only [hf] at hr'; subst hr'
        simp
        intro hp
        obtain ⟨p, ps, rfl⟩ := List.exists_cons_of_ne_nil hne
        have := hp p (by simp [PbConstraint.lits]); have := hall p (by simp); omega
      | succ uw =>
        have hb : ¬ b < 0 := by
          intro hb; apply hu; simp [PbConstraint.isUnsat, hb]
        simp only [hf] at hr'
        by_cases hr : b.natAbs % (uw + 1) ≠ 0
        · rw [if_pos hr] at hr'; subst hr'
          refine ⟨by simp, by simp, ?_, by simp, by simp⟩
          intro _ a hs
          simp only [PbConstraint.sat, wsum_const a _ hall] at hs
          apply hr
          have : b.natAbs = (uw + 1) * countTrue a (l.map (·.1)) := by omega
          rw [this]; simp
        · rw [if_neg hr] at hr'; subst hr'
          refine ⟨?_, by simp, by simp, by simp, by simp⟩
          intro d hd a; cases hd
          simp only [CardConstraint.sat, PbConstraint.sat, wsum_const a _ hall]
          generalize countTrue a (l.map (·.1)) = n
          have hdm := Nat.div_add_mod b.natAbs (uw + 1)
          generalize hq : b.natAbs / (uw + 1) = q at *
          constructor
          · rintro rfl; omega
          · intro h
            have : (uw + 1) * n = (uw + 1) * q := by omega
            exact Nat.eq_of_mul_eq_mul_left (by omega) this

example : (PbConstraint.lb [(x0, 2), (x1, 2), (x2, 2)] 6 3).WF ∧
    (PbConstraint.lb [(x0, 2), (x1, 2), (x2, 2)] 6 3).PosWeights ∧
    (PbConstraint.lb [(x0, 2), (x1, 2), (x2, 2)] 6 3).intoCardConstr = .ok (.lb [x0, x1, x2] 2) := by
  refine ⟨rfl, ?_, by decide⟩
  simp [PbConstraint.PosWeights, PbConstraint.lits]

/-- C13 is violated: `into_card_constr` panics (remainder by zero) on `0 x0 = 0`. -/
theorem C13_violated_zero_weight_panics :
    (PbConstraint.newEq [(x0, 0)] 0).intoCardConstr = .panic := by decide

/-- C13: `extend_to_card_constr` preserves the meaning for non-negative bounds. -/
theorem C13_extend_to_card_partial (c : PbConstraint) (h : 0 ≤ c.bound) (a : Asg) :
    c.extendToCardConstr.sat a ↔ c.sat a := by
  cases c <;> simp only [PbConstraint.extendToCardConstr, CardConstraint.sat, PbConstraint.sat,
    PbConstraint.countTrue_repeatLits, PbConstraint.bound] at * <;> omega

example : (PbConstraint.ub [(x0, 2), (x1, 1)] 3 2).extendToCardConstr = .ub [x0, x0, x1] 2 := by decide

/-- C13 is violated for negative bounds: the documentation announces a panic, but the function silently
returns a non-equivalent constraint. -/
theorem C13_violated_extend_negative :
    ∃ c : PbConstraint, c.isUnsat = true ∧ c.extendToCardConstr.isTautology = true :=
  ⟨.ub [(x0, 1)] 1 (-1), by decide⟩

/-- C13: `into_clause` succeeds exactly when `is_clause` holds, never panics, and the clause is equivalent. -/
theorem C13_into_clause (c : PbConstraint) (hw : c.WF) :
    (c.isClause = true → ∃ cl, c.intoClause = .ok cl ∧ ∀ a, Clause.sat a cl ↔ c.sat a) ∧
    (c.isClause = false → c.intoClause = .err ()) := by
  refine ⟨fun h => ?_, fun h => by simp [PbConstraint.intoClause, h]⟩
  cases c with
  | ub l ws b =>
    refine ⟨l.map fun p => p.1.neg, by simp [PbConstraint.intoClause, h], fun a => ?_⟩
    simp only [PbConstraint.WF, PbConstraint.weightSum, PbConstraint.lits] at hw
    simp only [PbConstraint.isClause] at h
    split at h
    · cases h
    split at h
    · cases h
    rename_i ht hu
    simp only [PbConstraint.isUnsat, decide_eq_true_eq] at hu
    simp only [Bool.and_eq_true, decide_eq_true_eq] at h
    simp only [Clause.sat, PbConstraint.sat, List.mem_map]
    constructor
    · rintro ⟨x, ⟨p, hp, rfl⟩, hx⟩
      have hf : p.1.holds a = false := by simpa using hx
      have h1 := wsum_add_le_wtotal a hp hf
      have h2 := PbConstraint.minCoeff_le hp
      omega
    · intro hs
      apply Classical.byContradiction
      intro hno
      have hall : ∀ p ∈ l, p.1.holds a = true := by
        intro p hp
        cases hh : p.1.holds a
        · exact absurd ⟨p.1.neg, ⟨p, hp, rfl⟩, by simp [hh]⟩ hno
        · rfl
      rw [wsum_eq_wtotal_of_all a hall] at hs
      omega
  | lb l ws b =>
    refine ⟨l.map (·.1), by simp [PbConstraint.intoClause, h], fun a => ?_⟩
    simp only [PbConstraint.isClause] at h
    split at h
    · cases h
    split at h
    · cases h
    rename_i ht hu
    simp only [PbConstraint.isTautology, decide_eq_true_eq] at ht
    simp only [decide_eq_true_eq] at h
    simp only [Clause.sat, PbConstraint.sat, List.mem_map]
    constructor
    · rintro ⟨x, ⟨p, hp, rfl⟩, hx⟩
      have h1 := wsum_mem_le a hp hx
      have h2 := PbConstraint.minCoeff_le hp
      omega
    · intro hs
      apply Classical.byContradiction
      intro hno
      have hall : ∀ p ∈ l, p.1.holds a = false := by
        intro p hp
        cases hh : p.1.holds a
        · rfl
        · exact absurd ⟨p.1, ⟨p, hp, rfl⟩, hh⟩ hno
      rw [wsum_eq_zero_of_none a hall] at hs
      omega
  | eq l ws b => simp [PbConstraint.isClause] at h

example : (PbConstraint.lb [(x0, 2), (x1, 3)] 5 2).isClause = true ∧
    (PbConstraint.ub [(x0, 2), (x1, 3)] 5 3).isClause = true := by decide

/-- C13: conversions from clauses and cardinality constraints preserve the meaning. -/
theorem C13_of_clause_of_card (cl : Clause) (c : CardConstraint) (l : Lit) (a : Asg) :
    ((PbConstraint.ofClause cl).sat a ↔ Clause.sat a cl) ∧ ((PbConstraint.ofCard c).sat a ↔ c.sat a) ∧
    ((PbConstraint.newUnit l).sat a ↔ l.holds a = true) ∧ (PbConstraint.ofCard c).WF := by
  refine ⟨?_, ?_, ?_, ?_⟩
  · unfold PbConstraint.ofClause
    rw [(C11_new_signed _ _ a).2.1, isum_map_one, Clause.sat_iff_pos]; omega
  · cases c with
    | ub x b => simp only [PbConstraint.ofCard]; rw [(C11_new_signed _ _ a).1, isum_map_one]; simp only [CardConstraint.sat]; omega
    | lb x b => simp only [PbConstraint.ofCard]; rw [(C11_new_signed _ _ a).2.1, isum_map_one]; simp only [CardConstraint.sat]; omega
    | eq x b => simp only [PbConstraint.ofCard]; rw [(C11_new_signed _ _ a).2.2, isum_map_one]; simp only [CardConstraint.sat]; omega
  · simp only [PbConstraint.newUnit, PbConstraint.sat, wsum_cons, wsum_nil]
    cases l.holds a <;> simp
  · have := fun ls b => C11_weight_sum ls [] x0 b (.ub [] 0 0) rfl
    cases c with
    | ub x b => exact (this _ _).1
    | lb x b => exact (this _ _).2.1
    | eq x b => exact (this _ _).2.2.1

/-! ### C14 -/

/-- C14 (cardinality, part that holds): True is sound for every constraint; False is sound for upper bounds,
for total assignments, and unless the bound is exactly the number of not-false literals; no DontCare on
assignments that are total on the literals. -/
theorem C14_card_evaluate_partial (c : CardConstraint) (a : Assignment) :
    (c.evaluate a = .true → ∀ b, a.completedBy b → c.sat b) ∧
    (c.evaluate a = .false → (∃ l b, c = .ub l b) ∨ (∀ l ∈ c.lits, a.litValue l ≠ .dontCare) ∨
        c.bound ≠ notFalseWeight a (c.lits.map fun l => (l, 1)) → ∀ b, a.completedBy b → ¬ c.sat b) ∧
    ((∀ l ∈ c.lits, a.litValue l ≠ .dontCare) → c.evaluate a ≠ .dontCare) := by
  have hr := fun b hb => CardConstraint.range_bounds a c.lits b hb
  have ht := CardConstraint.range_total a c.lits
  rw [← CardConstraint.range_snd]
  unfold CardConstraint.evaluate
  by_cases hc : (CardConstraint.range a c.lits).1 ≤ c.bound ∧ c.bound < (CardConstraint.range a c.lits).2
  · simp only [if_pos hc, reduceCtorEq, false_implies, true_and]
    intro h; have := ht h; omega
  · simp only [if_neg hc]
    cases c with
    | ub l b =>
      simp only [TernaryVal.ofBool_true, TernaryVal.ofBool_false, decide_eq_true_eq, decide_eq_false_iff_not]
      refine ⟨fun h b' hb' => ?_, fun h _ b' hb' => ?_, fun _ => TernaryVal.ofBool_dontCare _⟩ <;>
      · have := hr b' hb'
        simp only [CardConstraint.lits, CardConstraint.bound, CardConstraint.sat] at *; omega
    | lb l b =>
      simp only [TernaryVal.ofBool_true, TernaryVal.ofBool_false, decide_eq_true_eq, decide_eq_false_iff_not]
      refine ⟨fun h b' hb' => ?_, fun h h2 b' hb' => ?_, fun _ => TernaryVal.ofBool_dontCare _⟩
      · have := hr b' hb'
        simp only [CardConstraint.lits, CardConstraint.bound, CardConstraint.sat] at *; omega
      · have := hr b' hb'
        simp only [CardConstraint.lits, CardConstraint.bound, CardConstraint.sat] at *
        rcases h2 with ⟨_, _, e⟩ | h2 | h2
        · cases e
        · have := ht h2; omega
        · omega
    | eq l b =>
      simp only [TernaryVal.ofBool_true, TernaryVal.ofBool_false, decide_eq_true_eq, decide_eq_false_iff_not]
      refine ⟨fun h b' hb' => ?_, fun h h2 b' hb' => ?_, fun _ => TernaryVal.ofBool_dontCare _⟩
      · have := hr b' hb'
        simp only [CardConstraint.lits, CardConstraint.bound, CardConstraint.sat] at *; omega
      · have := hr b' hb'
        simp only [CardConstraint.lits, CardConstraint.bound, CardConstraint.sat] at *
        rcases h2 with ⟨_, _, e⟩ | h2 | h2
        · cases e
        · have := ht h2; omega
        · omega

/-- C14 is violated: `x0 + x1 >= 2` evaluates to False on the assignment that leaves `x1` open and sets `x0`,
although a completion satisfies it; likewise `x0 + x1 = 2`. -/
theorem C14_violated_card_false :
    (CardConstraint.lb [x0, x1] 2).evaluate ⟨[.true]⟩ = .false ∧
    (CardConstraint.eq [x0, x1] 2).evaluate ⟨[.true]⟩ = .false ∧
    (⟨[.true]⟩ : Assignment).completedBy (fun _ => true) ∧ (CardConstraint.lb [x0, x1] 2).sat (fun _ => true) ∧
    (CardConstraint.eq [x0, x1] 2).sat (fun _ => true) := by
  refine ⟨by decide, by decide, ?_, by simp only [CardConstraint.sat]; decide,
    by simp only [CardConstraint.sat]; decide⟩
  intro v
  refine ⟨fun _ => rfl, ?_⟩
  cases v with
  | zero => simp [Assignment.varValue]
  | succ v => simp [Assignment.varValue]

example : (CardConstraint.ub [x0, x1, x2] 1).evaluate ⟨[.true, .true]⟩ = .false ∧
    (CardConstraint.ub [x0, x1, x2] 2).evaluate ⟨[.false]⟩ = .true ∧
    (CardConstraint.lb [x0, x1, x2] 1).evaluate ⟨[.true, .true]⟩ = .true ∧
    (CardConstraint.lb [x0, x1, x2] 3).evaluate ⟨[.false]⟩ = .false := by decide

/-- C14 (pseudo-Boolean, part that holds): as for cardinality constraints, provided the weights fit `isize`
(see `C14_violated_pb_isize` for larger ones). `evaluate` never reaches `unreachable!`. -/
theorem C14_pb_evaluate_partial (c : PbConstraint) (a : Assignment)
    (hfit : notFalseWeight a c.lits ≤ isizeMax) :
    ∃ v, c.evaluate a = some v ∧
    (v = .true → ∀ b, a.completedBy b → c.sat b) ∧
    (v = .false → (∃ l ws b, c = .ub l ws b) ∨ (∀ p ∈ c.lits, a.litValue p.1 ≠ .dontCare) ∨
        c.bound ≠ notFalseWeight a c.lits → ∀ b, a.completedBy b → ¬ c.sat b) ∧
    ((∀ p ∈ c.lits, a.litValue p.1 ≠ .dontCare) → v ≠ .dontCare) := by
  have hr := fun b hb => PbConstraint.range_bounds a c.lits b hb
  have ht := PbConstraint.range_total a c.lits
  rw [← PbConstraint.range_snd] at hfit ⊢
  have hle : (PbConstraint.range a c.lits).1 ≤ (PbConstraint.range a c.lits).2 := by
    have := hr (fun v => decide (a.varValue v = .true)) (by
      intro v; refine ⟨fun h => by simp [h], fun h => by simp [h]⟩)
    omega
  unfold PbConstraint.evaluate
  simp only [if_pos (Nat.le_trans hle hfit), if_pos hfit]
  by_cases hc : ((PbConstraint.range a c.lits).1 : Int) ≤ c.bound ∧ c.bound < ((PbConstraint.range a c.lits).2 : Int)
  · simp only [if_pos hc]
    refine ⟨_, rfl, by simp, by simp, ?_⟩
    intro h; have := ht h; omega
  · simp only [if_neg hc]
    cases c with
    | ub l ws b =>
      refine ⟨_, rfl, ?_⟩
      simp only [TernaryVal.ofBool_true, TernaryVal.ofBool_false, decide_eq_true_eq, decide_eq_false_iff_not]
      refine ⟨fun h b' hb' => ?_, fun h _ b' hb' => ?_, fun _ => TernaryVal.ofBool_dontCare _⟩ <;>
      · have := hr b' hb'
        simp only [PbConstraint.lits, PbConstraint.bound, PbConstraint.sat] at *; omega
    | lb l ws b =>
      refine ⟨_, rfl, ?_⟩
      simp only [TernaryVal.ofBool_true, TernaryVal.ofBool_false, decide_eq_true_eq, decide_eq_false_iff_not]
      refine ⟨fun h b' hb' => ?_, fun h h2 b' hb' => ?_, fun _ => TernaryVal.ofBool_dontCare _⟩
      · have := hr b' hb'
        simp only [PbConstraint.lits, PbConstraint.bound, PbConstraint.sat] at *; omega
      · have := hr b' hb'
        simp only [PbConstraint.lits, PbConstraint.bound, PbConstraint.sat] at *
        rcases h2 with ⟨_, _, _, e⟩ | h2 | h2
        · cases e
        · have := ht h2; omega
        · omega
    | eq l ws b =>
      refine ⟨_, rfl, ?_⟩
      simp only [TernaryVal.ofBool_true, TernaryVal.ofBool_false, decide_eq_true_eq, decide_eq_false_iff_not]
      refine ⟨fun h b' hb' => ?_, fun h h2 b' hb' => ?_, fun _ => TernaryVal.ofBool_dontCare _⟩
      · have := hr b' hb'
        simp only [PbConstraint.lits, PbConstraint.bound, PbConstraint.sat] at *; omega
      · have := hr b' hb'
        simp only [PbConstraint.lits, PbConstraint.bound, PbConstraint.sat] at *
        rcases h2 with ⟨_, _, _, e⟩ | h2 | h2
        · cases e
        · have := ht h2; omega
        · omega

example : notFalseWeight ⟨[.true]⟩ [(x0, 3), (x1, 4)] ≤ isizeMax ∧
    (PbConstraint.ub [(x0, 3), (x1, 4)] 7 2).evaluate ⟨[.true]⟩ = some .false := by decide

/-- C14 is violated for PB lower bounds in the same way. -/
theorem C14_violated_pb_false :
    (PbConstraint.lb [(x0, 3), (x1, 4)] 7 7).evaluate ⟨[.true]⟩ = some .false ∧
    (PbConstraint.lb [(x0, 3), (x1, 4)] 7 7).sat (fun _ => true) := by
  refine ⟨by decide, by simp only [PbConstraint.sat]; decide⟩

/-- C14 is violated when the possible sum exceeds `isize::MAX`: an upper bound that is already violated
evaluates to True, and a lower bound that is already satisfied evaluates to False. -/
theorem C14_violated_pb_isize :
    (PbConstraint.ub [(x0, 1), (x1, isizeMax)] (isizeMax + 1) 0).evaluate ⟨[.true]⟩ = some .true ∧
    (PbConstraint.lb [(x0, 1), (x1, isizeMax)] (isizeMax + 1) 0).evaluate ⟨[.true]⟩ = some .false ∧
    (∀ b : Asg, b 0 = true → ¬ (PbConstraint.ub [(x0, 1), (x1, isizeMax)] (isizeMax + 1) 0).sat b ∧
      (PbConstraint.lb [(x0, 1), (x1, isizeMax)] (isizeMax + 1) 0).sat b) := by
  refine ⟨by decide, by decide, ?_⟩
  intro b hb
  have h : x0.holds b = true := by simp [x0, Lit.holds, hb]
  simp only [PbConstraint.sat, wsum_cons, h]
  constructor <;> simp <;> omega

end RustSat
