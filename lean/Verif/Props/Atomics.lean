import Verif.Lemmas.Instance
/-
Property theorems C24 (atomic encodings), C25 (reified constraints), C15 (CNF operations).
-/
namespace RustSat
open Atomics

private def x0 : Lit := Lit.mk' 0 false
private def x1 : Lit := Lit.mk' 1 false
private def x2 : Lit := Lit.mk' 2 false

/-! ### C24 -/

/-- C24: the four encodings that are a single clause. -/
theorem C24_single_clause (a : Asg) (p q : Lit) (ps qs : List Lit) :
    (Clause.sat a (litImplLit p q) ↔ (p.holds a = true → q.holds a = true)) ∧
    (Clause.sat a (litImplClause p qs) ↔ (p.holds a = true → Clause.sat a qs)) ∧
    (Clause.sat a (cubeImplLit ps q) ↔ (cubeSat a ps → q.holds a = true)) ∧
    (Clause.sat a (cubeImplClause ps qs) ↔ (cubeSat a ps → Clause.sat a qs)) := by
  simp only [litImplLit, litImplClause, cubeImplLit, cubeImplClause, Clause.sat_append, Clause.sat_cons,
    Clause.sat_map_neg, Lit.holds_neg, Clause.sat_nil, or_false]
  refine ⟨?_, ?_, ?_, ?_⟩
  · cases p.holds a <;> simp
  · cases p.holds a <;> simp
  · exact (Classical.or_iff_not_imp_left.trans (by rw [Classical.not_not]))
  · constructor
    · rintro (h | h) hc
      · exact h
      · exact absurd hc h
    · intro h
      by_cases hc : cubeSat a ps
      · exact .inl (h hc)
      · exact .inr hc

/-- C24: the five encodings that are several clauses. -/
theorem C24_multiple_clauses (a : Asg) (p q : Lit) (ps qs : List Lit) :
    (ClauseSet.sat a (litImplCube p qs) ↔ (p.holds a = true → cubeSat a qs)) ∧
    (ClauseSet.sat a (clauseImplLit ps q) ↔ (Clause.sat a ps → q.holds a = true)) ∧
    (ClauseSet.sat a (clauseImplClause ps qs) ↔ (Clause.sat a ps → Clause.sat a qs)) ∧
    (ClauseSet.sat a (clauseImplCube ps qs) ↔ (Clause.sat a ps → cubeSat a qs)) ∧
    (ClauseSet.sat a (cubeImplCube ps qs) ↔ (cubeSat a ps → cubeSat a qs)) := by
  have h2 : ∀ x y : Lit, Clause.sat a [x.neg, y] ↔ (x.holds a = true → y.holds a = true) :=
    fun x y => (C24_single_clause a x y [] []).1
  have h3 : ∀ (x : Lit) (ys : List Lit), Clause.sat a (ys ++ [x.neg]) ↔ (x.holds a = true → Clause.sat a ys) :=
    fun x ys => (C24_single_clause a x x [] ys).2.1
  have h4 : ∀ (xs : List Lit) (y : Lit), Clause.sat a (xs.map Lit.neg ++ [y]) ↔ (cubeSat a xs → y.holds a = true) :=
    fun xs y => (C24_single_clause a y y xs []).2.2.1
  refine ⟨?_, ?_, ?_, ?_, ?_⟩
  · simp only [litImplCube, ClauseSet.sat_map, h2, cubeSat]
    exact ⟨fun h hp l hl => h l hl hp, fun h l hl hp => h hp l hl⟩
  · simp only [clauseImplLit, ClauseSet.sat_map, h2]
    constructor
    · rintro h ⟨l, hl, hh⟩; exact h l hl hh
    · intro h l hl hh; exact h ⟨l, hl, hh⟩
  · simp only [clauseImplClause, ClauseSet.sat_map, h3]
    constructor
    · rintro h ⟨l, hl, hh⟩; exact h l hl hh
    · intro h l hl hh; exact h ⟨l, hl, hh⟩
  · simp only [clauseImplCube, ClauseSet.sat, List.mem_flatMap, List.mem_map, cubeSat]
    constructor
    · rintro h ⟨x, hx, hh⟩ y hy
      exact (h2 x y).1 (h _ ⟨x, hx, y, hy, rfl⟩) hh
    · rintro h _ ⟨x, hx, y, hy, rfl⟩
      exact (h2 x y).2 (fun hh => h ⟨x, hx, hh⟩ y hy)
  · simp only [cubeImplCube, ClauseSet.sat_map, h4]
    exact ⟨fun h hc l hl => h l hl hc, fun h l hl hc => h hc l hl⟩

example : clauseImplCube [x0, x1] [x2, x1.neg] =
    [[x0.neg, x2], [x0.neg, x1.neg], [x1.neg, x2], [x1.neg, x1.neg]] := by decide

/-! ### C25 -/

/-- C25: `lit -> card`. For every satisfiable upper or lower bound constraint whose size fits `isize` the
result is exactly the implication; equalities and unsatisfiable constraints panic, as documented. -/
theorem C25_lit_impl_card (lit : Lit) (c : CardConstraint) :
    (c.isUnsat = true ∨ (∃ l b, c = .eq l b) → litImplCard lit c = .panic) ∧
    (c.isUnsat = false → (∀ l b, c ≠ .eq l b) → c.len + c.bound ≤ isizeMax →
      ∃ d, litImplCard lit c = .ok d ∧ d.WF ∧ ∀ a, d.sat a ↔ (lit.holds a = true → c.sat a)) := by
  constructor
  · rintro (h | ⟨l, b, rfl⟩)
    · simp [litImplCard, h]
    · simp [litImplCard]
  · intro hu he hs
    cases c with
    | ub l b =>
      simp only [CardConstraint.len, CardConstraint.lits, CardConstraint.bound] at hs
      refine ⟨PbConstraint.newUbUnsigned (l.map (fun x => (x, 1)) ++ [(lit, l.length)]) ((l.length + b : Nat) : Int),
        by simp [litImplCard, hu, toIsize, hs], ?_, fun a => ?_⟩
      · simp [PbConstraint.WF, PbConstraint.newUbUnsigned, PbConstraint.weightSum, PbConstraint.lits,
          PbConstraint.sumWeights_eq]
      · have := countTrue_le_length a l
        simp only [PbConstraint.newUbUnsigned, PbConstraint.sat, wsum_append, wsum_map_one, wsum_cons, wsum_nil,
          CardConstraint.sat]
        cases lit.holds a <;> simp <;> omega
    | lb l b =>
      simp only [CardConstraint.len, CardConstraint.lits, CardConstraint.bound] at hs
      have hs' : b ≤ isizeMax := by omega
      refine ⟨PbConstraint.newLbUnsigned (l.map (fun x => (x, 1)) ++ [(lit.neg, b)]) (b : Int),
        by simp [litImplCard, hu, toIsize, hs'], ?_, fun a => ?_⟩
      · simp [PbConstraint.WF, PbConstraint.newLbUnsigned, PbConstraint.weightSum, PbConstraint.lits,
          PbConstraint.sumWeights_eq]
      · simp only [PbConstraint.newLbUnsigned, PbConstraint.sat, wsum_append, wsum_map_one, wsum_cons, wsum_nil,
          CardConstraint.sat, Lit.holds_neg]
        cases lit.holds a <;> simp <;> omega
    | eq l b => exact absurd rfl (he l b)

/-- C25: `card -> lit`. `_partial`: for tautological upper bounds the code is wrong
(`C25_violated_tautology`). -/
theorem C25_card_impl_lit_partial (lit : Lit) (c : CardConstraint) :
    (c.isUnsat = true ∨ (∃ l b, c = .eq l b) → cardImplLit c lit = .panic) ∧
    (c.isUnsat = false → (∀ l b, c ≠ .eq l b) → (∀ l b, c = .ub l b → c.isTautology = false) →
      2 * c.len + 1 ≤ isizeMax →
      ∃ d, cardImplLit c lit = .ok d ∧ d.WF ∧ ∀ a, d.sat a ↔ (c.sat a → lit.holds a = true)) := by
  have hneg : ∀ (l : List Lit), (l.map fun x => ((x.neg, 1) : Lit × Nat)) = (l.map Lit.neg).map (fun x => (x, 1)) := by
    intro l; simp
  constructor
  · rintro (h | ⟨l, b, rfl⟩)
    · simp [cardImplLit, h]
    · simp [cardImplLit]
  · intro hu he ht hs
    cases c with
    | ub l b =>
      have ht := ht l b rfl
      simp only [CardConstraint.isTautology, decide_eq_false_iff_not] at ht
      simp only [CardConstraint.len, CardConstraint.lits] at hs
      have h1 : ¬ (2 * l.length < b + 1) := by omega
      have h2 : 2 * l.length - b - 1 ≤ isizeMax := by omega
      refine ⟨PbConstraint.newUbUnsigned (l.map (fun x => (x.neg, 1)) ++ [(lit.neg, l.length)])
        ((2 * l.length - b - 1 : Nat) : Int),
        by simp only [cardImplLit, hu, toIsize, if_neg h1, if_pos h2]; rfl, ?_, fun a => ?_⟩
      · simp [PbConstraint.WF, PbConstraint.newUbUnsigned, PbConstraint.weightSum, PbConstraint.lits,
          PbConstraint.sumWeights_eq]
      · have := countTrue_le_length a l
        have h3 := countTrue_map_neg a l
        simp only [PbConstraint.newUbUnsigned, PbConstraint.sat, wsum_append, hneg, wsum_map_one, wsum_cons,
          wsum_nil, CardConstraint.sat, Lit.holds_neg]
        cases lit.holds a <;> simp <;> omega
    | lb l b =>
      simp only [CardConstraint.len, CardConstraint.lits] at hs
      simp only [CardConstraint.isUnsat, decide_eq_false_iff_not] at hu
      have h1 : ¬ (l.length < b) := by omega
      have h2 : l.length - b + 1 ≤ isizeMax := by omega
      refine ⟨PbConstraint.newLbUnsigned (l.map (fun x => (x.neg, 1)) ++ [(lit, l.length - b + 1)])
        ((l.length - b + 1 : Nat) : Int),
        by simp only [cardImplLit, CardConstraint.isUnsat, toIsize, if_neg h1, if_pos h2]
           simp [hu], ?_, fun a => ?_⟩
      · simp [PbConstraint.WF, PbConstraint.newLbUnsigned, PbConstraint.weightSum, PbConstraint.lits,
          PbConstraint.sumWeights_eq]
      · have := countTrue_le_length a l
        have h3 := countTrue_map_neg a l
        simp only [PbConstraint.newLbUnsigned, PbConstraint.sat, wsum_append, hneg, wsum_map_one, wsum_cons,
          wsum_nil, CardConstraint.sat]
        cases lit.holds a <;> simp <;> omega
    | eq l b => exact absurd rfl (he l b)

/-- C25: `lit -> pb`, for every satisfiable upper or lower bound constraint. -/
theorem C25_lit_impl_pb (lit : Lit) (c : PbConstraint) (hw : c.WF) :
    (c.isUnsat = true ∨ (∃ l w b, c = .eq l w b) → litImplPb lit c = .panic) ∧
    (c.isUnsat = false → (∀ l w b, c ≠ .eq l w b) → c.weightSum ≤ isizeMax →
      ∃ d, litImplPb lit c = .ok d ∧ d.WF ∧ ∀ a, d.sat a ↔ (lit.holds a = true → c.sat a)) := by
  constructor
  · rintro (h | ⟨l, w, b, rfl⟩)
    · simp [litImplPb, h]
    · simp [litImplPb]
  · intro hu he hs
    cases c with
    | ub l w b =>
      simp only [PbConstraint.weightSum, PbConstraint.WF, PbConstraint.lits] at hs hw
      simp only [PbConstraint.isUnsat, decide_eq_false_iff_not] at hu
      refine ⟨((PbConstraint.ub l w b).add [(lit, (w : Int))]).setBound
        (((PbConstraint.ub l w b).add [(lit, (w : Int))]).bound + w), ?_, ?_, fun a => ?_⟩
      · simp [litImplPb, PbConstraint.isUnsat, toIsize, PbConstraint.weightSum, hs]; omega
      · simp [PbConstraint.WF, PbConstraint.add, PbConstraint.convertInputLits, PbConstraint.setBound,
          PbConstraint.weightSum, PbConstraint.lits, hw]
      · have := wsum_le_wtotal a l
        simp only [PbConstraint.add, PbConstraint.convertInputLits, PbConstraint.setBound, PbConstraint.sat,
          PbConstraint.bound]
        simp
        cases lit.holds a <;> simp <;> omega
    | lb l w b =>
      simp only [PbConstraint.weightSum, PbConstraint.WF, PbConstraint.lits] at hs hw
      refine ⟨_, by simp only [litImplPb, hu]; rfl, ?_, fun a => ?_⟩
      · simp only [PbConstraint.WF, PbConstraint.add, PbConstraint.convertInputLits, PbConstraint.bound]
        by_cases hb : b ≥ 0 <;> simp [hb, PbConstraint.weightSum, PbConstraint.lits, hw]
      · simp only [PbConstraint.add, PbConstraint.convertInputLits, PbConstraint.bound]
        by_cases hb : b ≥ 0
        · simp only [hb, if_true, PbConstraint.sat, wsum_append, wsum_cons, wsum_nil, Lit.holds_neg]
          cases lit.holds a <;> simp <;> omega
        · simp only [hb, if_false, PbConstraint.sat, wsum_append, wsum_cons, wsum_nil, Lit.holds_neg]
          cases lit.holds a <;> simp <;> omega
    | eq l w b => exact absurd rfl (he l w b)

/-- C25: `pb -> lit`. `_partial`: for tautological upper bounds the code is wrong
(`C25_violated_tautology`). -/
theorem C25_pb_impl_lit_partial (lit : Lit) (c : PbConstraint) (hw : c.WF) :
    (c.isUnsat = true ∨ (∃ l w b, c = .eq l w b) → pbImplLit c lit = .panic) ∧
    (c.isUnsat = false → (∀ l w b, c ≠ .eq l w b) → (∀ l w b, c = .ub l w b → c.isTautology = false) →
      c.weightSum ≤ isizeMax →
      ∃ d, pbImplLit c lit = .ok d ∧ d.WF ∧ ∀ a, d.sat a ↔ (c.sat a → lit.holds a = true)) := by
  have hisum : ∀ (a : Asg) (l : List (Lit × Nat)),
      isum a (l.map fun p => (p.1.neg, (p.2 : Int))) = ((wsum a (l.map fun p => (p.1.neg, p.2)) : Nat) : Int) := by
    intro a l
    induction l with
    | nil => rfl
    | cons p l ih =>
      simp only [List.map_cons, isum_cons, wsum_cons, ih, Int.natCast_add]
      cases p.1.neg.holds a <;> simp
  constructor
  · rintro (h | ⟨l, w, b, rfl⟩)
    · simp [pbImplLit, h]
    · simp [pbImplLit]
  · intro hu he ht hs
    cases c with
    | ub l w b =>
      have ht := ht l w b rfl
      simp only [PbConstraint.weightSum, PbConstraint.WF, PbConstraint.lits] at hs hw
      simp only [PbConstraint.isUnsat, decide_eq_false_iff_not] at hu
      simp only [PbConstraint.isTautology, if_neg hu, decide_eq_false_iff_not] at ht
      refine ⟨PbConstraint.newUbUnsigned (l.map (fun p => (p.1.neg, p.2)) ++ [(lit.neg, w)]) (2 * w - b - 1),
        by (simp [pbImplLit, PbConstraint.isUnsat, toIsize, PbConstraint.weightSum, hs]; omega), ?_, fun a => ?_⟩
      · simp [PbConstraint.WF, PbConstraint.newUbUnsigned, PbConstraint.sumWeights_eq,
          PbConstraint.weightSum, PbConstraint.lits]
      · have h1 := wsum_le_wtotal a l
        have h2 := wsum_map_neg a l
        simp only [PbConstraint.newUbUnsigned, PbConstraint.sat, wsum_append, wsum_cons, wsum_nil,
          Lit.holds_neg]
        cases lit.holds a <;> simp <;> omega
    | lb l w b =>
      simp only [PbConstraint.weightSum, PbConstraint.WF, PbConstraint.lits] at hs hw
      refine ⟨PbConstraint.newLb (l.map (fun p => (p.1.neg, (p.2 : Int))) ++ [(lit, (w : Int) - b + 1)]) (w - b + 1),
        by simp [pbImplLit, hu, toIsize, PbConstraint.weightSum, hs], ?_, fun a => ?_⟩
      · simp only [PbConstraint.WF, PbConstraint.newLb, PbConstraint.weightSum, PbConstraint.lits]
        exact (PbConstraint.convertInputLits_spec _ (fun _ => false)).2
      · have h1 := wsum_le_wtotal a l
        have h2 := wsum_map_neg a l
        have h3 := (PbConstraint.convertInputLits_spec
          (l.map (fun p => (p.1.neg, (p.2 : Int))) ++ [(lit, (w : Int) - b + 1)]) a).1
        simp only [isum_append, hisum, isum_cons, isum_nil] at h3
        simp only [PbConstraint.newLb]
        generalize PbConstraint.convertInputLits
          (l.map (fun p => (p.1.neg, (p.2 : Int))) ++ [(lit, (w : Int) - b + 1)]) = r at h3 ⊢
        rcases r with ⟨r1, r2, r3⟩
        simp only [PbConstraint.sat] at h3 ⊢
        have hb : b ≤ w := by
          simp only [PbConstraint.isUnsat] at hu
          by_cases hb : b < 0
          · omega
          · simp only [if_neg hb, decide_eq_false_iff_not] at hu; omega
        cases hh : lit.holds a <;> simp [hh] at h3 ⊢ <;> omega
    | eq l w b => exact absurd rfl (he l w b)

/-- C25 is violated for tautological constraints: `x0 <= 1 -> x1` should be equivalent to `x1`, but the
returned constraint is falsified by `x1 = true, x0 = false`; and `x0 <= 2 -> x1` panics. Same for the
pseudo-Boolean version. -/
theorem C25_violated_tautology :
    (∃ d, cardImplLit (.ub [x0] 1) x1 = .ok d ∧ x1.holds (fun v => v == 1) = true ∧ ¬ d.sat (fun v => v == 1)) ∧
    cardImplLit (.ub [x0] 2) x1 = .panic ∧
    (∃ d, pbImplLit (.ub [(x0, 1)] 1 1) x1 = .ok d ∧ ¬ d.sat (fun v => v == 1)) := by
  refine ⟨⟨_, rfl, by decide, ?_⟩, by decide, ⟨_, rfl, ?_⟩⟩ <;>
    simp [PbConstraint.newUbUnsigned, PbConstraint.sat] <;> decide

example : (CardConstraint.ub [x0, x1, x2] 1).isUnsat = false ∧
    (CardConstraint.ub [x0, x1, x2] 1).isTautology = false ∧
    (PbConstraint.ub [(x0, 2), (x1, 3)] 5 3).isUnsat = false ∧
    (PbConstraint.ub [(x0, 2), (x1, 3)] 5 3).isTautology = false ∧
    (PbConstraint.lb [(x0, 2), (x1, 3)] 5 3).isUnsat = false := by decide

/-! ### C15 -/

/-- C15: `normalize` and `sanitize` preserve the models. -/
theorem C15_normalize_sanitize (f : ClauseSet) (a : Asg) :
    (ClauseSet.sat a (Cnf.normalize f) ↔ ClauseSet.sat a f) ∧
    (ClauseSet.sat a (Cnf.sanitize f) ↔ ClauseSet.sat a f) := by
  constructor
  · rw [← ClauseSet.sat_filterMap a Clause.normalize f (fun c _ => Clause.sat_normalize a c)]
    simp only [ClauseSet.sat, Cnf.mem_normalize, List.mem_filterMap]
  · exact ClauseSet.sat_filterMap a Clause.sanitize f (fun c _ => Clause.sat_sanitize a c)

/-- C15: comparing normalised CNFs is comparing sets of sets of literals: the clauses are identified with
their sets of literals, tautologies are ignored. -/
theorem C15_normalize_canonical (f g : ClauseSet) :
    Cnf.normalize f = Cnf.normalize g ↔
      (∀ c ∈ f, ¬ Clause.Taut c → ∃ d ∈ g, ∀ l, l ∈ c ↔ l ∈ d) ∧
      (∀ d ∈ g, ¬ Clause.Taut d → ∃ c ∈ f, ∀ l, l ∈ c ↔ l ∈ d) := by
  constructor
  · intro h
    have key : ∀ f g : ClauseSet, Cnf.normalize f = Cnf.normalize g → ∀ c ∈ f, ¬ Clause.Taut c →
        ∃ d ∈ g, ∀ l, l ∈ c ↔ l ∈ d := by
      intro f g h c hc ht
      rcases Clause.normalize_spec c with ⟨_, ht'⟩ | ⟨n, hn, _, _, hm⟩
      · exact absurd ht' ht
      · have : n ∈ Cnf.normalize g := by rw [← h, Cnf.mem_normalize]; exact ⟨c, hc, hn⟩
        obtain ⟨d, hd, hdn⟩ := (Cnf.mem_normalize _ _).1 this
        rcases Clause.normalize_spec d with ⟨hx, _⟩ | ⟨n', hn', _, _, hm'⟩
        · rw [hx] at hdn; cases hdn
        · rw [hn'] at hdn; cases hdn
          exact ⟨d, hd, fun l => by rw [← hm, ← hm']⟩
    refine ⟨key f g h, fun d hd ht => ?_⟩
    obtain ⟨c, hc, hm⟩ := key g f h.symm d hd ht
    exact ⟨c, hc, fun l => (hm l).symm⟩
  · rintro ⟨h1, h2⟩
    apply Cnf.ClauseSorted.ext (Cnf.sorted_normalize f) (Cnf.sorted_normalize g)
    have key : ∀ f g : ClauseSet, (∀ c ∈ f, ¬ Clause.Taut c → ∃ d ∈ g, ∀ l, l ∈ c ↔ l ∈ d) →
        ∀ n, n ∈ Cnf.normalize f → n ∈ Cnf.normalize g := by
      intro f g h n hn
      obtain ⟨c, hc, hcn⟩ := (Cnf.mem_normalize _ _).1 hn
      rcases Clause.normalize_spec c with ⟨hx, _⟩ | ⟨n', hn', ht, hs, hm⟩
      · rw [hx] at hcn; cases hcn
      · rw [hn'] at hcn; cases hcn
        obtain ⟨d, hd, hdm⟩ := h c hc ht
        rw [Cnf.mem_normalize]
        refine ⟨d, hd, ?_⟩
        rcases Clause.normalize_spec d with ⟨_, ht'⟩ | ⟨n', hn', _, hs', hm'⟩
        · exact absurd ((Clause.taut_congr hdm).2 ht') ht
        · rw [hn', StrictSorted.ext hs' hs (fun l => by rw [hm, hm', hdm])]
    intro n
    exact ⟨key f g h1 n, key g f (fun d hd ht => by
      obtain ⟨c, hc, hm⟩ := h2 d hd ht
      exact ⟨c, hc, fun l => (hm l).symm⟩) n⟩

example : ¬ Clause.Taut [x0, x1, x0] ∧ (∀ l, l ∈ [x0, x1, x0] ↔ l ∈ [x1, x0]) := by
  constructor
  · rw [← Clause.isTautology_iff]; decide
  · intro l; simp; exact fun h => .inr h

/-- C15: `&`, join and adding clauses denote conjunction, `|` disjunction. -/
theorem C15_connectives (f g : ClauseSet) (c d : Clause) (l m n : Lit) (a : Asg) :
    (ClauseSet.sat a (Cnf.join f g) ↔ ClauseSet.sat a f ∧ ClauseSet.sat a g) ∧
    (ClauseSet.sat a (Cnf.addClause f c) ↔ ClauseSet.sat a f ∧ Clause.sat a c) ∧
    (ClauseSet.sat a (Cnf.andOp c d) ↔ Clause.sat a c ∧ Clause.sat a d) ∧
    (ClauseSet.sat a (Cnf.andCnf c f) ↔ Clause.sat a c ∧ ClauseSet.sat a f) ∧
    (Clause.sat a (Cnf.orOp c d) ↔ Clause.sat a c ∨ Clause.sat a d) ∧
    (ClauseSet.sat a (Cnf.addUnit f l) ↔ ClauseSet.sat a f ∧ l.holds a = true) ∧
    (ClauseSet.sat a (Cnf.addBinary f l m) ↔ ClauseSet.sat a f ∧ (l.holds a = true ∨ m.holds a = true)) ∧
    (ClauseSet.sat a (Cnf.addTernary f l m n) ↔
      ClauseSet.sat a f ∧ (l.holds a = true ∨ m.holds a = true ∨ n.holds a = true)) := by
  simp [Cnf.join, Cnf.addClause, Cnf.andOp, Cnf.andCnf, Cnf.orOp, Cnf.addUnit, Cnf.addBinary, Cnf.addTernary]

/-- C15: the implication builder methods add the implication they name. -/
theorem C15_builders (f : ClauseSet) (p q : Lit) (ps qs : List Lit) (a : Asg) :
    (ClauseSet.sat a (Cnf.addLitImplLit f p q) ↔ ClauseSet.sat a f ∧ (p.holds a = true → q.holds a = true)) ∧
    (ClauseSet.sat a (Cnf.addLitImplClause f p qs) ↔ ClauseSet.sat a f ∧ (p.holds a = true → Clause.sat a qs)) ∧
    (ClauseSet.sat a (Cnf.addLitImplCube f p qs) ↔ ClauseSet.sat a f ∧ (p.holds a = true → cubeSat a qs)) ∧
    (ClauseSet.sat a (Cnf.addCubeImplLit f ps q) ↔ ClauseSet.sat a f ∧ (cubeSat a ps → q.holds a = true)) ∧
    (ClauseSet.sat a (Cnf.addClauseImplLit f ps q) ↔ ClauseSet.sat a f ∧ (Clause.sat a ps → q.holds a = true)) ∧
    (ClauseSet.sat a (Cnf.addCubeImplClause f ps qs) ↔ ClauseSet.sat a f ∧ (cubeSat a ps → Clause.sat a qs)) ∧
    (ClauseSet.sat a (Cnf.addClauseImplClause f ps qs) ↔
      ClauseSet.sat a f ∧ (Clause.sat a ps → Clause.sat a qs)) ∧
    (ClauseSet.sat a (Cnf.addClauseImplCube f ps qs) ↔ ClauseSet.sat a f ∧ (Clause.sat a ps → cubeSat a qs)) ∧
    (ClauseSet.sat a (Cnf.addCubeImplCube f ps qs) ↔ ClauseSet.sat a f ∧ (cubeSat a ps → cubeSat a qs)) := by
  obtain ⟨h1, h2, h3, h4⟩ := C24_single_clause a p q ps qs
  obtain ⟨h5, h6, h7, h8, h9⟩ := C24_multiple_clauses a p q ps qs
  simp only [Cnf.addLitImplLit, Cnf.addLitImplClause, Cnf.addLitImplCube, Cnf.addCubeImplLit,
    Cnf.addClauseImplLit, Cnf.addCubeImplClause, Cnf.addClauseImplClause, Cnf.addClauseImplCube,
    Cnf.addCubeImplCube, Cnf.addClause, Cnf.join, ClauseSet.sat_append, ClauseSet.sat_cons, ClauseSet.sat_nil,
    and_true, h1, h2, h3, h4, h5, h6, h7, h8, h9]

/-- C15: evaluation is the three-valued conjunction of the values of the clauses. -/
theorem C15_evaluate (f : ClauseSet) (a : Assignment) :
    (Cnf.evaluate f a = .true ↔ ∀ c ∈ f, Clause.evaluate c a = .true) ∧
    (Cnf.evaluate f a = .false ↔ ∃ c ∈ f, Clause.evaluate c a = .false) ∧
    (Cnf.evaluate f a = .dontCare ↔
      (∀ c ∈ f, Clause.evaluate c a ≠ .false) ∧ ∃ c ∈ f, Clause.evaluate c a = .dontCare) := by
  unfold Cnf.evaluate
  rw [Cnf.evalLoop_spec _ _ (by simp)]
  simp only [List.mem_map, false_or, reduceCtorEq]
  by_cases hf : ∃ c ∈ f, Clause.evaluate c a = .false
  · rw [if_pos hf]
    refine ⟨?_, by simp [hf], ?_⟩
    · obtain ⟨c, hc, h⟩ := hf
      simp only [reduceCtorEq, false_iff]
      intro hall; rw [hall c hc] at h; cases h
    · obtain ⟨c, hc, h⟩ := hf
      simp only [reduceCtorEq, false_iff]
      intro hall; exact hall.1 c hc h
  · rw [if_neg hf]
    have hf' : ∀ c ∈ f, Clause.evaluate c a ≠ .false := fun c hc h => hf ⟨c, hc, h⟩
    by_cases hd : ∃ c ∈ f, Clause.evaluate c a = .dontCare
    · rw [if_pos hd]
      refine ⟨?_, by simp [hf], by simp only [true_iff]; exact ⟨hf', hd⟩⟩
      obtain ⟨c, hc, h⟩ := hd
      simp only [reduceCtorEq, false_iff]
      intro hall; rw [hall c hc] at h; cases h
    · rw [if_neg hd]
      refine ⟨?_, by simp [hf], by simp [hd]⟩
      simp only [true_iff]
      intro c hc
      cases h : Clause.evaluate c a with
      | true => rfl
      | false => exact absurd h (hf' c hc)
      | dontCare => exact absurd ⟨c, hc, h⟩ hd

end RustSat
