import Verif.Lemmas.Assignment
/-
Property theorems C01–C05 (literals, constructors, assignments, value lines).
-/
namespace RustSat

/-! ### C01 -/

/-- C01 (literal → integer → literal): every literal whose variable fits the IPASIR range converts to a
non-zero 32-bit integer with the right sign, and back to the same literal. -/
theorem C01_lit_ipasir_roundtrip (l : Lit) (h : (l.var : Int) + 1 ≤ i32Max) :
    ∃ z, l.toIpasir = .ok z ∧ l.toIpasirWithError = .ok z ∧ i32Min ≤ z ∧ z ≤ i32Max ∧ z ≠ 0 ∧
      (z < 0 ↔ l.isNeg = true) ∧ Lit.fromIpasir z = .ok l := by
  simp only [i32Max] at h
  refine ⟨if l.isNeg then -((l.var : Int) + 1) else (l.var : Int) + 1, ?_⟩
  have hmk := Lit.mk'_var_isNeg l
  have hm : maxVarIdx = 2147483647 := rfl
  cases hn : l.isNeg
  · rw [hn] at hmk
    refine ⟨by simp [Lit.toIpasir, i32Max, h, hn], by simp [Lit.toIpasirWithError, i32Max, h, hn],
      by simp [i32Min]; omega, by simpa [i32Max] using h, by simp; omega, by simp; omega, ?_⟩
    unfold Lit.fromIpasir Lit.newWithError
    rw [if_neg (by simp; omega), if_neg (by simp; omega)]
    have h1 : ((if false = true then -((l.var : Int) + 1) else (l.var : Int) + 1)).natAbs - 1 = l.var := by
      simp; omega
    have h2 : decide ((if false = true then -((l.var : Int) + 1) else (l.var : Int) + 1) < 0) = false := by
      simp; omega
    rw [h1, h2, hmk]
  · rw [hn] at hmk
    refine ⟨by simp [Lit.toIpasir, i32Max, h, hn], by simp [Lit.toIpasirWithError, i32Max, h, hn],
      by simp [i32Min]; omega, by simp [i32Max]; omega, by simp; omega, by simp <;> omega, ?_⟩
    unfold Lit.fromIpasir Lit.newWithError
    rw [if_neg (by simp; omega), if_neg (by simp; omega)]
    have h1 : ((if true = true then -((l.var : Int) + 1) else (l.var : Int) + 1)).natAbs - 1 = l.var := by
      simp; omega
    have h2 : decide ((if true = true then -((l.var : Int) + 1) else (l.var : Int) + 1) < 0) = true := by
      simp <;> omega
    rw [h1, h2, hmk]

example : ((Lit.mk' 41 true).var : Int) + 1 ≤ i32Max := by decide

/-- C01 (integer → literal → integer): every non-zero 32-bit integer except `i32::MIN` converts to the
literal with that variable and sign, and back. (`_partial`: `i32::MIN` is excluded, see
`C01_violated_at_i32_min`.) -/
theorem C01_int_ipasir_roundtrip_partial (z : Int) (h0 : z ≠ 0) (hlo : i32Min < z) (hhi : z ≤ i32Max) :
    ∃ l, Lit.fromIpasir z = .ok l ∧ l.var + 1 = z.natAbs ∧ (l.isNeg = true ↔ z < 0) ∧ l.Valid ∧
      l.toIpasir = .ok z := by
  simp only [i32Min, i32Max] at hlo hhi
  have hm : maxVarIdx = 2147483647 := rfl
  refine ⟨Lit.mk' (z.natAbs - 1) (decide (z < 0)), ?_, ?_, ?_, ?_, ?_⟩
  · unfold Lit.fromIpasir Lit.newWithError
    rw [if_neg h0, if_neg (by omega)]
  · simp; omega
  · simp
  · simp [Lit.Valid, u32Max]; split <;> omega
  · unfold Lit.toIpasir
    rw [if_pos (by simp [i32Max]; omega)]
    congr 1
    by_cases hz : z < 0 <;> simp [hz] <;> omega

example : (-7 : Int) ≠ 0 ∧ i32Min < -7 ∧ (-7 : Int) ≤ i32Max := by decide

/-- C01: zero, and only zero, is rejected with the dedicated error. -/
theorem C01_zero_rejected (z : Int) : Lit.fromIpasir z = .err .ipasirZero ↔ z = 0 := by
  unfold Lit.fromIpasir Lit.newWithError
  split
  · simp_all
  · split <;> simp_all

/-- C01 is violated at `i32::MIN`: `from_ipasir(i32::MIN)` succeeds, but `to_ipasir` of that literal
panics (the index does not fit a `c_int`). -/
theorem C01_violated_at_i32_min :
    ∃ l, Lit.fromIpasir i32Min = .ok l ∧ l.Valid ∧ l.toIpasir = .panic := by
  refine ⟨Lit.mk' 2147483647 true, by decide, by decide, by decide⟩

/-! ### C02 -/

/-- C02: negation keeps the variable, flips the polarity, is an involution without fixed points and
complements the truth value under every assignment. -/
theorem C02_negation (l : Lit) (a : Asg) :
    l.neg.var = l.var ∧ l.neg.isNeg = !l.isNeg ∧ l.neg.isPos = l.isNeg ∧ l.neg.neg = l ∧ l.neg ≠ l ∧
      (l.neg.holds a = true ↔ l.holds a = false) := by
  refine ⟨by simp, by simp, by simp [Lit.isPos_eq], by simp, Lit.neg_ne l, ?_⟩
  simp

/-- C02: nothing sorts strictly between a literal and its negation, and validity is preserved. -/
theorem C02_negation_adjacent (l m : Lit) :
    (m.le l = true ↔ m.le l.neg = true) ∨ m = l ∨ m = l.neg := by
  simp only [Lit.le, Lit.ext_iff', Lit.lidx_neg, decide_eq_true_eq]
  split <;> omega

theorem C02_negation_valid (l : Lit) (h : l.Valid) : l.neg.Valid := by
  simp only [Lit.Valid, Lit.lidx_neg, u32Max] at *
  split <;> omega

example : (Lit.mk' 3 false).neg = Lit.mk' 3 true := by decide

/-! ### C03 -/

/-- C03 (part that holds): except at the single index `MAX_IDX`, all constructors accept exactly the
indices up to `MAX_IDX`, and the constructed literal reports its index and polarity.
Missing: `Lit::new` at `MAX_IDX`, see `C03_violated_at_max`. -/
theorem C03_constructors_partial (idx : Nat) (neg : Bool) (hne : idx ≠ maxVarIdx) :
    (Var.new idx = .ok idx ↔ idx ≤ maxVarIdx) ∧ (Var.newWithError idx = .ok idx ↔ idx ≤ maxVarIdx) ∧
    ((∃ l, Lit.new idx neg = .ok l) ↔ idx ≤ maxVarIdx) ∧
    ((∃ l, Lit.newWithError idx neg = .ok l) ↔ idx ≤ maxVarIdx) ∧
    (∀ l, Lit.new idx neg = .ok l → l.var = idx ∧ l.isNeg = neg ∧ l.isPos = !neg) ∧
    (∀ l, Lit.newWithError idx neg = .ok l → l.var = idx ∧ l.isNeg = neg ∧ l.isPos = !neg) := by
  refine ⟨?_, ?_, ?_, ?_, ?_, ?_⟩
  · unfold Var.new; split <;> simp_all
  · unfold Var.newWithError; split <;> simp_all
  · unfold Lit.new
    split
    · simp; omega
    · simp; omega
  · unfold Lit.newWithError
    split
    · simp; omega
    · simp; omega
  · intro l; unfold Lit.new; split
    · intro h; cases h; simp [Lit.isPos_eq]
    · intro h; cases h
  · intro l; unfold Lit.newWithError; split
    · intro h; cases h
    · intro h; cases h; simp [Lit.isPos_eq]

example : (12 : Nat) ≠ maxVarIdx := by decide

/-- C03 is violated at `MAX_IDX`: `Lit::new` panics although `Var::new` and both checked constructors
accept the index. -/
theorem C03_violated_at_max :
    Lit.new maxVarIdx false = .panic ∧ Var.new maxVarIdx = .ok maxVarIdx ∧
    Var.newWithError maxVarIdx = .ok maxVarIdx ∧
    Lit.newWithError maxVarIdx false = .ok (Lit.mk' maxVarIdx false) ∧ (Lit.mk' maxVarIdx false).Valid := by
  decide

/-! ### C04 -/

/-- C04: for every history of operations, starting from the empty assignment, the length and the value of
every variable agree with the abstract map, and literal values are the (negated) variable values. -/
theorem C04_assignment_refines_map (ops : List AOp) :
    (ops.foldl Assignment.step .empty).len = (ops.foldl AMap.step .empty).size ∧
    ∀ v, (ops.foldl Assignment.step .empty).varValue v = (ops.foldl AMap.step .empty).val v := by
  suffices h : ∀ (ops : List AOp) (a : Assignment) (m : AMap),
      a.len = m.size → (∀ v, a.varValue v = m.val v) →
      (ops.foldl Assignment.step a).len = (ops.foldl AMap.step m).size ∧
      ∀ v, (ops.foldl Assignment.step a).varValue v = (ops.foldl AMap.step m).val v by
    exact h ops _ _ rfl (by intro v; simp [AMap.empty])
  intro ops
  induction ops with
  | nil => intro a m h1 h2; exact ⟨h1, h2⟩
  | cons op ops ih =>
    intro a m h1 h2
    rw [List.foldl_cons, List.foldl_cons]
    apply ih
    · cases op with
      | assignVar v t => simp [Assignment.step, AMap.step, Assignment.len_assignVar, h1]
      | assignLit l => simp [Assignment.step, AMap.step, Assignment.assignLit, Assignment.len_assignVar, h1]
      | replaceDontCare d =>
        simp [Assignment.step, AMap.step, Assignment.replaceDontCare, Assignment.len, ← h1]
      | truncate mv =>
        simp [Assignment.step, AMap.step, Assignment.truncate, Assignment.len, ← h1]; omega
    · intro v
      cases op with
      | assignVar u t => simp [Assignment.step, AMap.step, Assignment.varValue_assignVar, h2]
      | assignLit l => simp [Assignment.step, AMap.step, Assignment.varValue_assignLit, h2]
      | replaceDontCare d =>
        simp [Assignment.step, AMap.step, Assignment.varValue_replaceDontCare, h2, h1]
      | truncate mv => simp [Assignment.step, AMap.step, Assignment.varValue_truncate, h2]

/-- A non-trivial history: grow with a gap, overwrite, fill, truncate. -/
example : ([AOp.assignVar 3 .true, .assignLit (Lit.mk' 1 true), .replaceDontCare false,
    .assignVar 3 .dontCare, .truncate 2].foldl Assignment.step .empty).vals =
      [.false, .false, .false] := by decide

/-- C04: the value of a literal is the value of its variable, negated for negative literals. -/
theorem C04_lit_value (a : Assignment) (l : Lit) :
    a.litValue l = if l.isNeg then (a.varValue l.var).not else a.varValue l.var := by
  unfold Assignment.litValue
  cases l.isNeg <;> cases a.varValue l.var <;> rfl

/-- C04: iterating an assignment yields exactly the literals that are true in it, in increasing variable
order without repetition, and collecting them gives the same values back (up to `MAX_IDX` variables; the
by-value iterator `IntoIterator` also allows `MAX_IDX` itself). -/
theorem C04_iter (a : Assignment) (h : a.len ≤ maxVarIdx) :
    ∃ ls, a.iter = some ls ∧ a.intoIter = some ls ∧
      (∀ l, l ∈ ls ↔ a.litValue l = .true) ∧ ls.Pairwise (fun x y => x.var < y.var) ∧
      ∀ v, (Assignment.ofLits ls).varValue v = a.varValue v := by
  unfold Assignment.len at h
  have key : ∀ (mk : Nat → Bool → Option Lit),
      (∀ i b, i < a.vals.length → mk i b = some (Lit.mk' i b)) → ∃ r, Assignment.iterFrom mk 0 a.vals = some r ∧
        (∀ l, l ∈ r ↔ a.litValue l = .true) ∧ r.Pairwise (fun x y => x.var < y.var) := by
    intro mk hmk
    obtain ⟨r, h1, h2, h3⟩ := Assignment.iterFrom_spec mk a.vals.length hmk a.vals 0 (by omega)
    refine ⟨r, h1, ?_, h3⟩
    intro l
    rw [h2, Assignment.litValue_true_iff, Assignment.varValue_eq]
    constructor
    · rintro ⟨k, hk, hv, hts⟩
      have : l.var = k := by omega
      rw [this, hts]; rfl
    · intro hv
      refine ⟨l.var, ?_, by omega, ?_⟩
      · rcases Nat.lt_or_ge l.var a.vals.length with h' | h'
        · exact h'
        · rw [List.getElem?_eq_none h'] at hv
          cases hn : l.isNeg <;> simp [hn] at hv
      · cases hg : a.vals[l.var]? with
        | none => rw [hg] at hv; cases hn : l.isNeg <;> simp [hn] at hv
        | some t => rw [hg] at hv; simpa using hv
  obtain ⟨r, h1, h2, h3⟩ := key (fun i b => match Lit.new i b with | .ok l => some l | _ => none)
    (by intro i b hi; simp only [Lit.new]; rw [if_pos (by omega)])
  obtain ⟨r', h1', h2', h3'⟩ := key (fun i b => match Var.new i with | .ok v => some (Lit.mk' v b) | _ => none)
    (by intro i b hi; simp only [Var.new]; rw [if_pos (by omega)])
  have hrr : r' = r := by
    have hgen : ∀ (ts : List TernaryVal) (i : Nat), i + ts.length ≤ a.vals.length →
        Assignment.iterFrom (fun i b => match Var.new i with | .ok v => some (Lit.mk' v b) | _ => none) i ts =
        Assignment.iterFrom (fun i b => match Lit.new i b with | .ok l => some l | _ => none) i ts := by
      intro ts
      induction ts with
      | nil => intros; rfl
      | cons t ts ih =>
        intro i hi
        simp only [List.length_cons] at hi
        have e1 : Var.new i = .ok i := by simp only [Var.new]; rw [if_pos (by omega)]
        have e2 : ∀ b, Lit.new i b = .ok (Lit.mk' i b) := by
          intro b; simp only [Lit.new]; rw [if_pos (by omega)]
        cases t <;> simp [Assignment.iterFrom, e1, e2, ih (i + 1) (by omega)]
    have := hgen a.vals 0 (by omega)
    rw [h1, h1'] at this
    exact Option.some.inj this
  subst hrr
  refine ⟨r', h1, h1', h2, h3, ?_⟩
  -- collecting
  have coll : ∀ (ls : List Lit) (b : Assignment), ls.Pairwise (fun x y => x.var < y.var) →
      ∀ v, (ls.foldl Assignment.assignLit b).varValue v =
        match ls.find? (fun l => l.var == v) with
        | some l => if l.isNeg then .false else .true
        | none => b.varValue v := by
    intro ls
    induction ls with
    | nil => intros; rfl
    | cons l ls ih =>
      intro b hp v
      rw [List.foldl_cons, ih _ hp.tail, List.find?_cons]
      by_cases hv : l.var = v
      · have : ls.find? (fun l => l.var == v) = none := by
          rw [List.find?_eq_none]
          intro x hx
          have := List.rel_of_pairwise_cons hp hx
          simp; omega
        rw [this]
        simp only [Assignment.varValue_assignLit, hv]; simp
      · simp only [beq_eq_false_iff_ne.2 hv]
        cases ls.find? (fun l => l.var == v) with
        | some l' => rfl
        | none => simp only [Assignment.varValue_assignLit, if_neg (fun e => hv (Eq.symm e))]
  intro v
  rw [Assignment.ofLits, coll _ _ h3 v]
  split
  · rename_i l hl
    have hm := List.mem_of_find?_eq_some hl
    have hp := List.find?_some hl
    simp at hp
    have := (Assignment.litValue_true_iff a l).1 ((h2 l).1 hm)
    rw [← hp, this]
  · rename_i hl
    rw [List.find?_eq_none] at hl
    rw [Assignment.varValue_empty]
    cases hv : a.varValue v with
    | dontCare => rfl
    | true =>
      have := (h2 (Lit.mk' v false)).2 ((Assignment.litValue_true_iff a _).2 (by simp [hv]))
      exact absurd (by simp) (hl _ this)
    | false =>
      have := (h2 (Lit.mk' v true)).2 ((Assignment.litValue_true_iff a _).2 (by simp [hv]))
      exact absurd (by simp) (hl _ this)

example : (⟨[.true, .dontCare, .false]⟩ : Assignment).len ≤ maxVarIdx ∧
    (⟨[.true, .dontCare, .false]⟩ : Assignment).iter = some [Lit.mk' 0 false, Lit.mk' 2 true] := by decide

/-! ### C05 -/

/-- C05 (part that holds): on a value line whose numbers are valid, name pairwise different variables, and
only variables not assigned before, parsing succeeds, makes every listed literal true and leaves all other
variables unchanged. Missing: detection of contradictions, see `C05_violated_*`. -/
theorem C05_sat_comp_vline_partial (nums : List Int) (a : Assignment)
    (hr : ∀ z ∈ nums, i32Min ≤ z ∧ z ≤ i32Max)
    (hd : nums.Pairwise (fun x y => x.natAbs ≠ y.natAbs ∨ x = 0))
    (ha : ∀ z ∈ nums, z ≠ 0 → a.varValue (z.natAbs - 1) = .dontCare) :
    ∃ a', a.extendSatComp nums = .ok a' ∧
      (∀ z ∈ nums, z ≠ 0 → a'.varValue (z.natAbs - 1) = (if z < 0 then .false else .true)) ∧
      (∀ v, (∀ z ∈ nums, z ≠ 0 → v ≠ z.natAbs - 1) → a'.varValue v = a.varValue v) := by
  induction nums generalizing a with
  | nil => exact ⟨a, rfl, by simp, by simp⟩
  | cons z zs ih =>
    have hz := hr z (by simp)
    simp only [i32Min, i32Max] at hz
    unfold Assignment.extendSatComp
    by_cases h0 : z = 0
    · rw [if_pos h0]
      obtain ⟨a', h1, h2, h3⟩ := ih a (fun x hx => hr x (by simp [hx])) hd.tail
        (fun x hx => ha x (by simp [hx]))
      refine ⟨a', h1, ?_, ?_⟩
      · intro x hx hx0
        rcases List.mem_cons.1 hx with rfl | hx
        · exact absurd h0 hx0
        · exact h2 x hx hx0
      · intro v hv
        exact h3 v (fun x hx => hv x (by simp [hx]))
    · rw [if_neg h0]
      have hf : Lit.fromIpasir z = .ok (Lit.mk' (z.natAbs - 1) (decide (z < 0))) := by
        unfold Lit.fromIpasir Lit.newWithError
        have hm : maxVarIdx = 2147483647 := rfl
        rw [if_neg h0, if_neg (by omega)]
      rw [hf]
      have hv : a.litValue (Lit.mk' (z.natAbs - 1) (decide (z < 0))) = .dontCare := by
        rw [C04_lit_value]; simp [ha z (by simp) h0, TernaryVal.not]
      simp only [hv]
      rw [if_neg (by simp)]
      have hdist : ∀ x ∈ zs, x ≠ 0 → x.natAbs - 1 ≠ z.natAbs - 1 := by
        intro x hx hx0
        have := List.rel_of_pairwise_cons hd hx
        omega
      obtain ⟨a', h1, h2, h3⟩ := ih (a.assignLit (Lit.mk' (z.natAbs - 1) (decide (z < 0))))
        (fun x hx => hr x (by simp [hx])) hd.tail (by
          intro x hx hx0
          rw [Assignment.varValue_assignLit, if_neg (by simpa using hdist x hx hx0)]
          exact ha x (by simp [hx]) hx0)
      refine ⟨a', h1, ?_, ?_⟩
      · intro x hx hx0
        rcases List.mem_cons.1 hx with rfl | hx
        · rw [h3 (x.natAbs - 1) (fun y hy hy0 e => hdist y hy hy0 e.symm)]
          rw [Assignment.varValue_assignLit]; simp
        · exact h2 x hx hx0
      · intro v hv'
        rw [h3 v (fun x hx => hv' x (by simp [hx])), Assignment.varValue_assignLit,
          if_neg (by simpa using hv' z (by simp) h0)]

example : (∀ z ∈ ([1, -2, 4, 0] : List Int), i32Min ≤ z ∧ z ≤ i32Max) ∧
    ([1, -2, 4, 0] : List Int).Pairwise (fun x y => x.natAbs ≠ y.natAbs ∨ x = 0) ∧
    Assignment.empty.extendSatComp [1, -2, 4, 0] = .ok ⟨[.true, .false, .dontCare, .true]⟩ := by decide

/-- C05 is violated: the contradictory line `v 1 -1 0` is accepted (the later value wins). -/
theorem C05_violated_conflict_missed :
    Assignment.empty.extendSatComp [1, -1, 0] = .ok ⟨[.false]⟩ := by decide

/-- C05 is violated: the consistent line `v -1 -1 0` is rejected as conflicting. -/
theorem C05_violated_false_conflict :
    Assignment.empty.extendSatComp [-1, -1, 0] = .err (.conflictingAssignment 0) := by decide

end RustSat
