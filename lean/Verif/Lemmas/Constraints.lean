import Verif.Lemmas.Clause
/-
Lemmas about cardinality and pseudo-Boolean constraints.
-/
namespace RustSat

theorem Clause.sat_iff_pos (a : Asg) (c : List Lit) : Clause.sat a c ↔ 1 ≤ countTrue a c :=
  (countTrue_pos_iff a c).symm

namespace PbConstraint

theorem minCoeff_fold (ls : List (Lit × Nat)) (m : Nat) :
    ls.foldl (fun m p => min m p.2) m ≤ m ∧ ∀ p ∈ ls, ls.foldl (fun m p => min m p.2) m ≤ p.2 := by
  induction ls generalizing m with
  | nil => simp
  | cons q qs ih =>
    simp only [List.foldl_cons, List.mem_cons, forall_eq_or_imp]
    have := ih (min m q.2)
    refine ⟨by omega, by omega, this.2⟩

theorem minCoeff_le {ls : List (Lit × Nat)} {p : Lit × Nat} (h : p ∈ ls) : minCoeff ls ≤ p.2 :=
  (minCoeff_fold ls usizeMax).2 p h

theorem sumWeights_eq (ls : List (Lit × Nat)) : sumWeights ls = wtotal ls := by
  have : ∀ (s : Nat), ls.foldl (fun s p => s + p.2) s = s + wtotal ls := by
    induction ls with
    | nil => simp
    | cons q qs ih => intro s; simp [ih]; omega
  unfold sumWeights; rw [this 0]; simp

theorem convertInputLits_spec (ls : List (Lit × Int)) (a : Asg) :
    (wsum a (convertInputLits ls).1 : Int) = isum a ls + (convertInputLits ls).2.2 ∧
    (convertInputLits ls).2.1 = wtotal (convertInputLits ls).1 := by
  induction ls with
  | nil => simp [convertInputLits]
  | cons p ps ih =>
    obtain ⟨l, w⟩ := p
    simp only [convertInputLits]
    revert ih
    rcases convertInputLits ps with ⟨x, y, z⟩
    rintro ⟨h1, h2⟩
    simp only at h1 h2
    by_cases hw : w ≥ 0
    · simp only [if_pos hw, wsum_cons, isum_cons, wtotal_cons, h2, and_true]
      cases l.holds a <;> simp <;> omega
    · simp only [if_neg hw, wsum_cons, isum_cons, wtotal_cons, h2, and_true, Lit.holds_neg]
      cases l.holds a <;> simp <;> omega

theorem findUnitWeightFrom_some (ls : List (Lit × Nat)) (uw w : Nat)
    (h : findUnitWeightFrom (some uw) ls = some w) : w = uw ∧ ∀ p ∈ ls, p.2 = w := by
  induction ls with
  | nil => simp [findUnitWeightFrom] at h; simp [h]
  | cons q qs ih =>
    unfold findUnitWeightFrom at h
    by_cases hq : uw = q.2
    · rw [if_neg (by simpa using hq)] at h
      obtain ⟨h1, h2⟩ := ih h
      exact ⟨h1, by simp only [List.mem_cons, forall_eq_or_imp]; exact ⟨by omega, h2⟩⟩
    · rw [if_pos hq] at h; cases h

theorem findUnitWeight_some {ls : List (Lit × Nat)} {w : Nat} (h : findUnitWeight ls = some w) :
    ls ≠ [] ∧ ∀ p ∈ ls, p.2 = w := by
  unfold findUnitWeight at h
  cases ls with
  | nil => simp [findUnitWeightFrom] at h
  | cons q qs =>
    unfold findUnitWeightFrom at h
    obtain ⟨h1, h2⟩ := findUnitWeightFrom_some qs _ w h
    exact ⟨by simp, by simp only [List.mem_cons, forall_eq_or_imp]; exact ⟨h1.symm, h2⟩⟩

theorem findUnitWeightFrom_none {ls : List (Lit × Nat)} {uw : Nat}
    (h : findUnitWeightFrom (some uw) ls = none) : ∃ p ∈ ls, p.2 ≠ uw := by
  induction ls with
  | nil => simp [findUnitWeightFrom] at h
  | cons q qs ih =>
    unfold findUnitWeightFrom at h
    by_cases hq : uw = q.2
    · rw [if_neg (by simpa using hq)] at h
      obtain ⟨p, hp, hne⟩ := ih h
      exact ⟨p, by simp [hp], hne⟩
    · exact ⟨q, by simp, fun e => hq e.symm⟩

theorem findUnitWeight_none {ls : List (Lit × Nat)} (h : findUnitWeight ls = none) :
    ls = [] ∨ ∃ p ∈ ls, ∃ q ∈ ls, p.2 ≠ q.2 := by
  unfold findUnitWeight at h
  cases ls with
  | nil => exact Or.inl rfl
  | cons q qs =>
    unfold findUnitWeightFrom at h
    obtain ⟨p, hp, hne⟩ := findUnitWeightFrom_none h
    exact Or.inr ⟨p, by simp [hp], q, by simp, hne⟩

theorem countTrue_repeatLits (a : Asg) (ls : List (Lit × Nat)) : countTrue a (repeatLits ls) = wsum a ls := by
  unfold repeatLits
  induction ls with
  | nil => rfl
  | cons p ps ih => rw [List.flatMap_cons, countTrue_append, ih, countTrue_replicate, wsum_cons]

theorem mergeLoop_wsum (a : Asg) (ls m : List (Lit × Nat)) :
    wsum a (mergeLoop m ls) = wsum a m + wsum a ls := by
  induction ls generalizing m with
  | nil => simp [mergeLoop]
  | cons p ps ih =>
    obtain ⟨l, w⟩ := p
    unfold mergeLoop
    rcases List.eq_nil_or_concat m with rfl | ⟨init, ⟨l2, w2⟩, rfl⟩
    · simp [ih]
    · rw [List.concat_eq_append] at *
      simp only [List.getLast?_append, List.getLast?_singleton, Option.some_or, List.dropLast_concat]
      by_cases h : l = l2
      · subst h; rw [if_pos rfl, ih]; simp; split <;> omega
      · rw [if_neg h, ih]; simp; omega

theorem mergeLoop_wtotal (ls m : List (Lit × Nat)) :
    wtotal (mergeLoop m ls) = wtotal m + wtotal ls := by
  induction ls generalizing m with
  | nil => simp [mergeLoop]
  | cons p ps ih =>
    obtain ⟨l, w⟩ := p
    unfold mergeLoop
    rcases List.eq_nil_or_concat m with rfl | ⟨init, ⟨l2, w2⟩, rfl⟩
    · simp [ih]
    · rw [List.concat_eq_append] at *
      simp only [List.getLast?_append, List.getLast?_singleton, Option.some_or, List.dropLast_concat]
      by_cases h : l = l2
      · subst h; rw [if_pos rfl, ih]; simp; omega
      · rw [if_neg h, ih]; simp; omega

theorem mergeLoop_sorted (ls m : List (Lit × Nat))
    (hm : m.Pairwise fun p q => p.1.lidx < q.1.lidx)
    (hls : ls.Pairwise fun p q => p.1.lidx ≤ q.1.lidx)
    (hc : ∀ p ∈ m, ∀ q ∈ ls, p.1.lidx ≤ q.1.lidx) :
    (mergeLoop m ls).Pairwise fun p q => p.1.lidx < q.1.lidx := by
  induction ls generalizing m with
  | nil => simpa [mergeLoop] using hm
  | cons p ps ih =>
    obtain ⟨l, w⟩ := p
    unfold mergeLoop
    have hps := hls.tail
    have hl : ∀ q ∈ ps, l.lidx ≤ q.1.lidx := fun q hq => List.rel_of_pairwise_cons hls hq
    rcases List.eq_nil_or_concat m with rfl | ⟨init, ⟨l2, w2⟩, rfl⟩
    · simp only [List.getLast?_nil, List.nil_append]
      exact ih _ (by simp) hps (by simpa using hl)
    · rw [List.concat_eq_append] at *
      simp only [List.getLast?_append, List.getLast?_singleton, Option.some_or, List.dropLast_concat]
      rw [List.pairwise_append] at hm
      obtain ⟨hm1, _, hm3⟩ := hm
      have hc2 : l2.lidx ≤ l.lidx := hc (l2, w2) (by simp) (l, w) (by simp)
      by_cases h : l = l2
      · subst h
        rw [if_pos rfl]
        refine ih _ ?_ hps ?_
        · rw [List.pairwise_append]
          refine ⟨hm1, by simp, ?_⟩
          intro x hx y hy
          simp only [List.mem_singleton] at hy; subst hy
          exact hm3 x hx (l, w2) (by simp)
        · intro x hx y hy
          simp only [List.mem_append, List.mem_singleton] at hx
          rcases hx with hx | rfl
          · exact hc x (by simp [hx]) y (by simp [hy])
          · exact hl y hy
      · rw [if_neg h]
        have hne : l2.lidx ≠ l.lidx := fun e => h ((Lit.ext_iff' l l2).2 e.symm)
        refine ih _ ?_ hps ?_
        · rw [List.pairwise_append]
          refine ⟨?_, by simp, ?_⟩
          · rw [List.pairwise_append]; exact ⟨hm1, by simp, hm3⟩
          · intro x hx y hy
            simp only [List.mem_singleton] at hy; subst hy
            simp only [List.mem_append, List.mem_singleton] at hx
            rcases hx with hx | rfl
            · have := hm3 x hx (l2, w2) (by simp)
              simp only at this ⊢
              omega
            · simp only; omega
        · intro x hx y hy
          simp only [List.mem_append, List.mem_singleton] at hx
          rcases hx with (hx | rfl) | rfl
          · exact hc x (by simp [hx]) y (by simp [hy])
          · exact hc (l2, w2) (by simp) y (by simp [hy])
          · exact hl y hy

theorem pairLe_trans (a b c : Lit × Nat) : pairLe a b = true → pairLe b c = true → pairLe a c = true := by
  simp [pairLe]; omega

theorem pairLe_total (a b : Lit × Nat) : (pairLe a b || pairLe b a) = true := by
  simp [pairLe]; omega

theorem normLits_spec (ls : List (Lit × Nat)) :
    (∀ a, wsum a (normLits ls) = wsum a ls) ∧ wtotal (normLits ls) = wtotal ls ∧
    (normLits ls).Pairwise fun p q => p.1.lidx < q.1.lidx := by
  unfold normLits
  by_cases h : ls.length ≤ 1
  · rw [if_pos h]
    refine ⟨fun _ => rfl, rfl, ?_⟩
    match ls, h with
    | [], _ => simp
    | [x], _ => simp
    | _ :: _ :: _, h => simp at h
  · rw [if_neg h]
    have hp := List.mergeSort_perm ls pairLe
    refine ⟨fun a => ?_, ?_, ?_⟩
    · rw [mergeLoop_wsum]; simp [wsum_perm a hp]
    · rw [mergeLoop_wtotal]; simp [wtotal_perm hp]
    · refine mergeLoop_sorted _ _ (by simp) ?_ (by simp)
      refine (List.pairwise_mergeSort pairLe_trans pairLe_total ls).imp ?_
      intro x y; simp [pairLe]; omega

end PbConstraint

/-! Ranges computed by `evaluate` -/

theorem holds_of_litValue_true {a : Assignment} {b : Asg} (hb : a.completedBy b) {l : Lit}
    (h : a.litValue l = .true) : l.holds b = true := by
  have hv := hb l.var
  unfold Assignment.litValue at h
  unfold Lit.holds
  cases hn : l.isNeg <;> cases hx : a.varValue l.var <;> simp_all

theorem holds_of_litValue_false {a : Assignment} {b : Asg} (hb : a.completedBy b) {l : Lit}
    (h : a.litValue l = .false) : l.holds b = false := by
  have hv := hb l.var
  unfold Assignment.litValue at h
  unfold Lit.holds
  cases hn : l.isNeg <;> cases hx : a.varValue l.var <;> simp_all

theorem PbConstraint.range_fold (a : Assignment) (ls : List (Lit × Nat)) (s e : Nat) (b : Asg)
    (hb : a.completedBy b) :
    (ls.foldl (PbConstraint.rangeStep a) (s, e)).1 ≤ s + wsum b ls ∧
    e + wsum b ls ≤ (ls.foldl (PbConstraint.rangeStep a) (s, e)).2 := by
  induction ls generalizing s e with
  | nil => simp
  | cons p ps ih =>
    rw [List.foldl_cons, wsum_cons]
    cases h : a.litValue p.1 with
    | true =>
      have := ih (s + p.2) (e + p.2)
      simp only [PbConstraint.rangeStep, h, holds_of_litValue_true hb h, if_true]
      omega
    | false =>
      have := ih s e
      simp only [PbConstraint.rangeStep, h, holds_of_litValue_false hb h]
      simpa using this
    | dontCare =>
      have := ih s (e + p.2)
      simp only [PbConstraint.rangeStep, h]
      split <;> omega

theorem PbConstraint.range_bounds (a : Assignment) (ls : List (Lit × Nat)) (b : Asg) (hb : a.completedBy b) :
    (PbConstraint.range a ls).1 ≤ wsum b ls ∧ wsum b ls ≤ (PbConstraint.range a ls).2 := by
  have := PbConstraint.range_fold a ls 0 0 b hb
  unfold PbConstraint.range; omega

theorem PbConstraint.range_total_fold (a : Assignment) (ls : List (Lit × Nat)) (s : Nat)
    (h : ∀ p ∈ ls, a.litValue p.1 ≠ .dontCare) :
    (ls.foldl (PbConstraint.rangeStep a) (s, s)).1 = (ls.foldl (PbConstraint.rangeStep a) (s, s)).2 := by
  induction ls generalizing s with
  | nil => rfl
  | cons p ps ih =>
    have ih' := fun s => ih s fun q hq => h q (by simp [hq])
    have h' := h p (by simp)
    rw [List.foldl_cons]
    cases hv : a.litValue p.1 with
    | true => simp only [PbConstraint.rangeStep, hv]; exact ih' _
    | false => simp only [PbConstraint.rangeStep, hv]; exact ih' _
    | dontCare => exact absurd hv h'

theorem PbConstraint.range_total (a : Assignment) (ls : List (Lit × Nat))
    (h : ∀ p ∈ ls, a.litValue p.1 ≠ .dontCare) : (PbConstraint.range a ls).1 = (PbConstraint.range a ls).2 :=
  PbConstraint.range_total_fold a ls 0 h

theorem CardConstraint.range_eq (a : Assignment) (ls : List Lit) :
    CardConstraint.range a ls = PbConstraint.range a (ls.map fun l => (l, 1)) := by
  unfold CardConstraint.range PbConstraint.range
  rw [List.foldl_map]
  rfl

theorem PbConstraint.range_snd (a : Assignment) (ls : List (Lit × Nat)) :
    (PbConstraint.range a ls).2 = notFalseWeight a ls := by
  have : ∀ s e, (ls.foldl (PbConstraint.rangeStep a) (s, e)).2 = e + notFalseWeight a ls := by
    induction ls with
    | nil => intros; rfl
    | cons p ps ih =>
      intro s e
      rw [List.foldl_cons]
      cases h : a.litValue p.1 <;> simp [PbConstraint.rangeStep, h, ih, notFalseWeight] <;> omega
  unfold PbConstraint.range; rw [this]; simp

theorem CardConstraint.range_snd (a : Assignment) (ls : List Lit) :
    (CardConstraint.range a ls).2 = notFalseWeight a (ls.map fun l => (l, 1)) := by
  rw [CardConstraint.range_eq, PbConstraint.range_snd]

theorem CardConstraint.range_bounds (a : Assignment) (ls : List Lit) (b : Asg) (hb : a.completedBy b) :
    (CardConstraint.range a ls).1 ≤ countTrue b ls ∧ countTrue b ls ≤ (CardConstraint.range a ls).2 := by
  rw [CardConstraint.range_eq]
  have := PbConstraint.range_bounds a (ls.map fun l => (l, 1)) b hb
  rwa [wsum_map_one] at this

theorem CardConstraint.range_total (a : Assignment) (ls : List Lit)
    (h : ∀ l ∈ ls, a.litValue l ≠ .dontCare) :
    (CardConstraint.range a ls).1 = (CardConstraint.range a ls).2 := by
  rw [CardConstraint.range_eq]
  exact PbConstraint.range_total a _ (by simpa using h)

theorem TernaryVal.ofBool_true (b : Bool) : TernaryVal.ofBool b = .true ↔ b = Bool.true := by
  cases b <;> simp [TernaryVal.ofBool]
theorem TernaryVal.ofBool_false (b : Bool) : TernaryVal.ofBool b = .false ↔ b = Bool.false := by
  cases b <;> simp [TernaryVal.ofBool]
theorem TernaryVal.ofBool_dontCare (b : Bool) : TernaryVal.ofBool b ≠ .dontCare := by
  cases b <;> simp [TernaryVal.ofBool]

end RustSat
