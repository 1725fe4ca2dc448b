import Verif.Lemmas.Clause
/-
Property theorems C06–C08 (clauses).
-/
namespace RustSat

private def l0 : Lit := Lit.mk' 0 false
private def l1 : Lit := Lit.mk' 1 false
private def l2 : Lit := Lit.mk' 2 false

/-! ### C06 -/

/-- C06: `normalize` returns `None` exactly for clauses containing a complementary pair. -/
theorem C06_normalize_none_iff (c : Clause) : Clause.normalize c = none ↔ ∃ l, l ∈ c ∧ l.neg ∈ c := by
  rcases Clause.normalize_spec c with ⟨h, t⟩ | ⟨d, h, t, _⟩
  · simp only [h, true_iff]; exact t
  · simp only [h, reduceCtorEq, false_iff]; exact t

/-- C06: `normalize` returns `None` exactly for clauses that every assignment satisfies. -/
theorem C06_normalize_none_iff_valid (c : Clause) :
    Clause.normalize c = none ↔ ∀ a : Asg, Clause.sat a c := by
  rw [C06_normalize_none_iff]
  constructor
  · rintro ⟨l, h1, h2⟩ a
    cases h : l.holds a
    · exact ⟨l.neg, h2, by simp [h]⟩
    · exact ⟨l, h1, h⟩
  · intro h
    -- the assignment that falsifies every literal it can
    obtain ⟨l, hl, hh⟩ := h (fun v => decide (Lit.negOf v ∈ c))
    refine ⟨l, hl, ?_⟩
    cases hn : l.isNeg
    · have e : l = Lit.pos l.var := Lit.ext_var (by simp) (by simp [hn])
      simp [Lit.holds, hn] at hh
      rw [e]; simpa using hh
    · have e : l = Lit.negOf l.var := Lit.ext_var (by simp) (by simp [hn])
      simp [Lit.holds, hn] at hh
      rw [← e] at hh; exact absurd hl hh

/-- C06: otherwise the normal form has the same models and the same set of literals, is strictly sorted
(so it has no duplicates), contains no complementary pair, and normalising again changes nothing. -/
theorem C06_normalize_preserves (c d : Clause) (h : Clause.normalize c = some d) :
    (∀ a, Clause.sat a d ↔ Clause.sat a c) ∧ (∀ l, l ∈ d ↔ l ∈ c) ∧ d.Nodup ∧
    d.Pairwise (fun x y => x.lidx < y.lidx) ∧ (¬ ∃ l, l ∈ d ∧ l.neg ∈ d) ∧ Clause.normalize d = some d := by
  rcases Clause.normalize_spec c with ⟨h', _⟩ | ⟨d', h', t, hs, hm⟩
  · rw [h] at h'; cases h'
  · rw [h] at h'; cases h'
    have ht : ¬ Clause.Taut d := fun x => t ((Clause.taut_congr hm).1 x)
    refine ⟨fun a => Clause.sat_congr hm, hm, hs.nodup, hs, ht, ?_⟩
    rcases Clause.normalize_spec d with ⟨_, t'⟩ | ⟨e, h2, _, hs2, hm2⟩
    · exact absurd t' ht
    · rw [h2, StrictSorted.ext hs2 hs hm2]

/-- C06: non-tautological clauses have equal normal forms exactly if they contain the same literals. -/
theorem C06_normalize_canonical (c d c' d' : Clause) (h : Clause.normalize c = some c')
    (h2 : Clause.normalize d = some d') : c' = d' ↔ ∀ l, l ∈ c ↔ l ∈ d := by
  obtain ⟨_, m1, _, s1, _, _⟩ := C06_normalize_preserves c c' h
  obtain ⟨_, m2, _, s2, _, _⟩ := C06_normalize_preserves d d' h2
  constructor
  · rintro rfl l; rw [← m1, m2]
  · intro hm
    exact StrictSorted.ext s1 s2 (fun l => by rw [m1, m2, hm])

example : Clause.normalize [l2, l0, l2, l1.neg, l0] = some [l0, l1.neg, l2] := by
  simp [Clause.normalize, Clause.dedupAdj, Clause.tautScan, List.mergeSort, List.MergeSort.Internal.splitInTwo, Lit.le, l0, l1, l2, Lit.neg, Lit.mk', Lit.represent]
example : Clause.normalize [l2, l0, l2.neg] = none :=
  (C06_normalize_none_iff _).2 ⟨l2, by decide⟩

/-! ### C07 -/

/-- C07: `sanitize` returns `None` exactly for tautologies. -/
theorem C07_sanitize_none_iff (c : Clause) : Clause.sanitize c = none ↔ ∃ l, l ∈ c ∧ l.neg ∈ c := by
  rcases Clause.sanitize_spec c with ⟨h, t⟩ | ⟨d, h, t, _⟩
  · simp only [h, true_iff]; exact t
  · simp only [h, reduceCtorEq, false_iff]; exact t

/-- C07: otherwise the result has the same models, the same literals in their original order, without
duplicates. -/
theorem C07_sanitize_preserves (c d : Clause) (h : Clause.sanitize c = some d) :
    (∀ a, Clause.sat a d ↔ Clause.sat a c) ∧ (∀ l, l ∈ d ↔ l ∈ c) ∧ d.Nodup ∧ d.Sublist c := by
  rcases Clause.sanitize_spec c with ⟨h', _⟩ | ⟨d', h', t, hs, hm, hsub⟩
  · rw [h] at h'; cases h'
  · rw [h] at h'; cases h'
    exact ⟨fun a => Clause.sat_congr hm, hm, hs, hsub⟩

example : Clause.sanitize [l2, l0, l2, l1.neg, l0] = some [l2, l0, l1.neg] := by decide
example : Clause.sanitize [l2, l0, l2.neg] = none := by decide

/-! ### C08 -/

/-- C08: a clause evaluates to True iff some literal is true, False iff all are false (DontCare otherwise). -/
theorem C08_evaluate (c : Clause) (a : Assignment) :
    (Clause.evaluate c a = .true ↔ ∃ l ∈ c, a.litValue l = .true) ∧
    (Clause.evaluate c a = .false ↔ ∀ l ∈ c, a.litValue l = .false) ∧
    (Clause.evaluate c a = .dontCare ↔
      (∀ l ∈ c, a.litValue l ≠ .true) ∧ ∃ l ∈ c, a.litValue l = .dontCare) := by
  unfold Clause.evaluate
  rw [Clause.evaluate_fold]
  simp only [reduceCtorEq, false_or]
  by_cases h1 : ∃ l ∈ c, a.litValue l = .true
  · rw [if_pos h1]
    obtain ⟨l, hl, hv⟩ := h1
    refine ⟨⟨fun _ => ⟨l, hl, hv⟩, fun _ => rfl⟩, ?_, ?_⟩
    · simp only [reduceCtorEq, false_iff]; intro h; have := h l hl; simp_all
    · simp only [reduceCtorEq, false_iff]; intro h; exact h.1 l hl hv
  · rw [if_neg h1]
    have h1' : ∀ l ∈ c, a.litValue l ≠ .true := fun l hl hv => h1 ⟨l, hl, hv⟩
    by_cases h2 : ∃ l ∈ c, a.litValue l = .dontCare
    · rw [if_pos h2]
      obtain ⟨l, hl, hv⟩ := h2
      refine ⟨by simp only [reduceCtorEq, false_iff]; exact h1, ?_, ?_⟩
      · simp only [reduceCtorEq, false_iff]; intro h; have := h l hl; simp_all
      · simp only [true_iff]; exact ⟨h1', l, hl, hv⟩
    · rw [if_neg h2]
      refine ⟨by simp only [reduceCtorEq, false_iff]; exact h1, ?_, ?_⟩
      · simp only [true_iff]; intro l hl
        have a1 := h1' l hl
        have a2 : a.litValue l ≠ .dontCare := fun hv => h2 ⟨l, hl, hv⟩
        cases hv : a.litValue l <;> simp_all
      · simp only [reduceCtorEq, false_iff]; intro h; exact h2 h.2

example : Clause.evaluate [l0, l1.neg] ⟨[.false, .true]⟩ = .false ∧
    Clause.evaluate [l0, l1.neg] ⟨[.dontCare, .false]⟩ = .true ∧
    Clause.evaluate [l0, l2] ⟨[.false, .true]⟩ = .dontCare := by decide

/-- C08: `remove` removes exactly one occurrence (reports whether there was one) and keeps every other
literal with its multiplicity. -/
theorem C08_remove (c : Clause) (l : Lit) :
    ((Clause.remove c l).2 = true ↔ l ∈ c) ∧
    (l ∈ c → (l :: (Clause.remove c l).1).Perm c) ∧ (l ∉ c → (Clause.remove c l).1 = c) := by
  unfold Clause.remove
  cases h : c.findIdx? (· == l) with
  | none =>
    have hn : l ∉ c := by
      rw [List.findIdx?_eq_none_iff] at h
      intro hm; simpa using h l hm
    simp [hn]
  | some i =>
    rw [List.findIdx?_eq_some_iff_getElem] at h
    obtain ⟨hi, he, _⟩ := h
    have he : c[i] = l := by simpa using he
    have hm : l ∈ c := he ▸ List.getElem_mem hi
    simp only [true_iff]
    refine ⟨hm, fun _ => ?_, fun hn => absurd hm hn⟩
    have := Clause.swapRemove_perm c i hi
    rwa [he] at this

/-- C08: `remove_thorough` removes all occurrences and keeps the rest in order. -/
theorem C08_remove_thorough (c : Clause) (l : Lit) :
    ((Clause.removeThorough c l).2 = true ↔ l ∈ c) ∧
    (Clause.removeThorough c l).1 = c.filter (fun x => decide (x ≠ l)) := by
  refine ⟨?_, Clause.removeThorough_fst c l⟩
  have := Clause.occIdxs_isEmpty l 0 c
  simp only [Clause.removeThorough, Bool.not_eq_true']
  cases h : (Clause.occIdxs l 0 c).isEmpty <;> simp_all

example : Clause.remove [l0, l1, l2, l1] l1 = ([l0, l1, l2], true) ∧
    Clause.removeThorough [l0, l1, l2, l1] l1 = ([l0, l2], true) := by decide

/-- C08: `is_tautology` holds exactly if the clause contains a complementary pair. -/
theorem C08_is_tautology (c : Clause) : Clause.isTautology c = true ↔ ∃ l, l ∈ c ∧ l.neg ∈ c :=
  Clause.isTautology_iff c

example : Clause.isTautology [l0, l1, l0.neg] = true ∧ Clause.isTautology [l0, l1, l0] = false := by decide

end RustSat
