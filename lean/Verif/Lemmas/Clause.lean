import Verif.Spec.Constraints
import Verif.Lemmas.Sums
import Verif.Lemmas.Assignment
/-
Lemmas about clause normalisation, sanitisation, removal and evaluation.
-/
namespace RustSat

theorem Lit.le_trans' (a b c : Lit) : a.le b = true → b.le c = true → a.le c = true := by
  simp [Lit.le]; omega

theorem Lit.le_total' (a b : Lit) : (a.le b || b.le a) = true := by
  simp [Lit.le]; omega

/-- Strictly increasing in the literal order. -/
def StrictSorted (ls : List Lit) : Prop := ls.Pairwise fun x y => x.lidx < y.lidx

theorem StrictSorted.nodup {ls : List Lit} (h : StrictSorted ls) : ls.Nodup := by
  unfold StrictSorted at h
  unfold List.Nodup
  refine h.imp ?_
  intro a b hab he
  subst he; omega

theorem StrictSorted.ext {x y : List Lit} (hx : StrictSorted x) (hy : StrictSorted y)
    (h : ∀ l, l ∈ x ↔ l ∈ y) : x = y := by
  have hp : x.Perm y := (List.perm_ext_iff_of_nodup hx.nodup hy.nodup).2 h
  unfold StrictSorted at hx hy
  exact List.Perm.eq_of_pairwise (le := fun a b : Lit => a.lidx < b.lidx)
    (fun a b _ _ h1 h2 => by omega) hx hy hp

namespace Clause

theorem sat_congr {a : Asg} {x y : List Lit} (h : ∀ l, l ∈ x ↔ l ∈ y) : Clause.sat a x ↔ Clause.sat a y := by
  simp [Clause.sat, h]

theorem mem_dedupAdj (l : Lit) (ls : List Lit) : l ∈ dedupAdj ls ↔ l ∈ ls := by
  fun_induction dedupAdj ls with
  | case1 => simp
  | case2 => simp
  | case3 x rest ih => rw [ih]; simp
  | case4 x y rest h ih => simp [ih]

theorem strictSorted_dedupAdj (ls : List Lit) (h : ls.Pairwise fun x y => x.le y = true) :
    StrictSorted (dedupAdj ls) := by
  unfold StrictSorted
  fun_induction dedupAdj ls with
  | case1 => simp
  | case2 => simp
  | case3 x rest ih => exact ih h.tail
  | case4 x y rest hne ih =>
    refine List.Pairwise.cons ?_ (ih h.tail)
    intro z hz
    rw [mem_dedupAdj] at hz
    have h1 : x.lidx ≤ y.lidx := by simpa [Lit.le] using List.rel_of_pairwise_cons h (List.mem_cons_self ..)
    have h2 : x.lidx ≠ y.lidx := fun e => hne ((Lit.ext_iff' x y).2 e)
    rcases List.mem_cons.1 hz with rfl | hz
    · omega
    · have h3 : y.lidx ≤ z.lidx := by simpa [Lit.le] using List.rel_of_pairwise_cons h.tail hz
      omega

theorem tautScan_some (x : Lit) (ls : List Lit) (h : StrictSorted (x :: ls)) :
    tautScan (some x.neg) ls = true ↔ Clause.Taut (x :: ls) := by
  induction ls generalizing x with
  | nil =>
    simp [tautScan, Clause.Taut]
    exact Lit.neg_ne x
  | cons y ys ih =>
    unfold tautScan
    by_cases hxy : x.neg = y
    · rw [if_pos (by simp [hxy])]
      exact ⟨fun _ => ⟨x, by simp, by simp [hxy]⟩, fun _ => rfl⟩
    · rw [if_neg (by simpa using hxy), ih y h.tail]
      constructor
      · rintro ⟨l, h1, h2⟩; exact ⟨l, by simp_all, by simp_all⟩
      · have hkey : x.neg ∈ y :: ys → False := by
          intro hm
          have hlt : x.lidx < x.neg.lidx := List.rel_of_pairwise_cons h hm
          rw [Lit.lidx_neg] at hlt
          have hy : x.lidx < y.lidx := List.rel_of_pairwise_cons h (List.mem_cons_self ..)
          rcases List.mem_cons.1 hm with e | hm
          · exact hxy e
          · have hz : y.lidx < x.neg.lidx := List.rel_of_pairwise_cons h.tail hm
            rw [Lit.lidx_neg] at hz
            split at hlt <;> split at hz <;> omega
        have hx' : x.neg ≠ x := Lit.neg_ne x
        rintro ⟨l, h1, h2⟩
        rcases List.mem_cons.1 h1 with rfl | h1
        · rcases List.mem_cons.1 h2 with e | h2
          · exact absurd e hx'
          · exact absurd h2 hkey
        · rcases List.mem_cons.1 h2 with e | h2
          · have : x.neg = l := by rw [← e]; simp
            rw [← this] at h1
            exact absurd h1 hkey
          · exact ⟨l, h1, h2⟩

theorem tautScan_none (ls : List Lit) (h : StrictSorted ls) :
    tautScan none ls = true ↔ Clause.Taut ls := by
  cases ls with
  | nil => simp [tautScan, Clause.Taut]
  | cons x xs =>
    unfold tautScan
    rw [if_neg (by simp)]
    exact tautScan_some x xs h

theorem taut_congr {x y : List Lit} (h : ∀ l, l ∈ x ↔ l ∈ y) : Clause.Taut x ↔ Clause.Taut y := by
  simp [Clause.Taut, h]

theorem taut_short {c : List Lit} (h : c.length ≤ 1) : ¬ Clause.Taut c := by
  match c, h with
  | [], _ => simp [Clause.Taut]
  | [x], _ => simp [Clause.Taut]; exact Lit.neg_ne x
  | _ :: _ :: _, h => simp at h

theorem strictSorted_short {c : List Lit} (h : c.length ≤ 1) : StrictSorted c := by
  match c, h with
  | [], _ => simp [StrictSorted]
  | [x], _ => simp [StrictSorted]
  | _ :: _ :: _, h => simp at h

theorem normalize_spec (c : Clause) :
    (normalize c = none ∧ Clause.Taut c) ∨
    (∃ d, normalize c = some d ∧ ¬ Clause.Taut c ∧ StrictSorted d ∧ ∀ l, l ∈ d ↔ l ∈ c) := by
  unfold normalize
  by_cases hl : c.length ≤ 1
  · rw [if_pos hl]
    exact Or.inr ⟨c, rfl, taut_short hl, strictSorted_short hl, fun l => Iff.rfl⟩
  · rw [if_neg hl]
    have hs : StrictSorted (dedupAdj (c.mergeSort Lit.le)) :=
      strictSorted_dedupAdj _ (List.pairwise_mergeSort Lit.le_trans' Lit.le_total' c)
    have hm : ∀ l, l ∈ dedupAdj (c.mergeSort Lit.le) ↔ l ∈ c := by
      intro l; rw [mem_dedupAdj]; exact (List.mergeSort_perm c Lit.le).mem_iff
    have ht := tautScan_none _ hs
    rw [taut_congr hm] at ht
    simp only
    by_cases h : tautScan none (dedupAdj (c.mergeSort Lit.le)) = true
    · rw [if_pos h]; exact Or.inl ⟨rfl, ht.1 h⟩
    · rw [if_neg h]; exact Or.inr ⟨_, rfl, fun h' => h (ht.2 h'), hs, hm⟩

theorem sanitizeLoop_spec (ls lset kept : List Lit) (hk : ∀ l, l ∈ lset ↔ l ∈ kept)
    (hn : kept.Nodup) (ht : ¬ Clause.Taut kept) :
    (sanitizeLoop lset kept ls = none ∧ Clause.Taut (kept ++ ls)) ∨
    (∃ d, sanitizeLoop lset kept ls = some d ∧ ¬ Clause.Taut (kept ++ ls) ∧ d.Nodup ∧
      (∀ l, l ∈ d ↔ l ∈ kept ++ ls) ∧ d.Sublist (kept ++ ls)) := by
  induction ls generalizing lset kept with
  | nil => right; exact ⟨kept, rfl, by simpa using ht, hn, by simp, by simp⟩
  | cons l ls ih =>
    unfold sanitizeLoop
    by_cases h1 : l.neg ∈ lset
    · rw [if_pos h1]; left
      refine ⟨rfl, l, by simp, ?_⟩
      simp [(hk _).1 h1]
    · rw [if_neg h1]
      by_cases h2 : l ∈ lset
      · rw [if_pos h2]
        have hmem := (hk _).1 h2
        have hiff : ∀ x, x ∈ kept ++ l :: ls ↔ x ∈ kept ++ ls := by
          intro x; simp only [List.mem_append, List.mem_cons]
          constructor
          · rintro (h | rfl | h)
            · exact Or.inl h
            · exact Or.inl hmem
            · exact Or.inr h
          · rintro (h | h)
            · exact Or.inl h
            · exact Or.inr (Or.inr h)
        rcases ih lset kept hk hn ht with ⟨e, t⟩ | ⟨d, e, t, dn, dm, ds⟩
        · left; exact ⟨e, (taut_congr hiff).2 t⟩
        · right
          refine ⟨d, e, fun h => t ((taut_congr hiff).1 h), dn, fun x => by rw [dm, hiff], ?_⟩
          exact ds.trans (List.Sublist.append (List.Sublist.refl _) (List.sublist_cons_self _ _))
      · rw [if_neg h2]
        have hnot : l ∉ kept := fun h => h2 ((hk _).2 h)
        have hnotneg : l.neg ∉ kept := fun h => h1 ((hk _).2 h)
        have := ih (l :: lset) (kept ++ [l]) (by intro x; simp [hk]; exact or_comm)
          (by
            rw [List.nodup_append]
            refine ⟨hn, by simp, ?_⟩
            intro x hx y hy; simp at hy; subst hy
            intro e; subst e; exact hnot hx)
          (by
            rintro ⟨x, hx1, hx2⟩
            simp only [List.mem_append, List.mem_singleton] at hx1 hx2
            rcases hx1 with hx1 | rfl
            · rcases hx2 with hx2 | hx2
              · exact ht ⟨x, hx1, hx2⟩
              · apply hnotneg; rw [← hx2]; simpa using hx1
            · rcases hx2 with hx2 | hx2
              · exact hnotneg hx2
              · exact Lit.neg_ne _ hx2)
        simpa using this

theorem sanitize_spec (c : Clause) :
    (sanitize c = none ∧ Clause.Taut c) ∨
    (∃ d, sanitize c = some d ∧ ¬ Clause.Taut c ∧ d.Nodup ∧ (∀ l, l ∈ d ↔ l ∈ c) ∧ d.Sublist c) := by
  unfold sanitize
  by_cases hl : c.length ≤ 1
  · rw [if_pos hl]
    exact Or.inr ⟨c, rfl, taut_short hl, (strictSorted_short hl).nodup, fun l => Iff.rfl, List.Sublist.refl _⟩
  · rw [if_neg hl]
    simpa using sanitizeLoop_spec c [] [] (by simp) (by simp) (by simp [Clause.Taut])

theorem isTautology_iff (c : Clause) : isTautology c = true ↔ Clause.Taut c := by
  induction c with
  | nil => simp [isTautology, Clause.Taut]
  | cons l ls ih =>
    simp only [isTautology, Bool.or_eq_true, List.any_eq_true, beq_iff_eq, ih]
    constructor
    · rintro (⟨x, hx, rfl⟩ | ⟨x, h1, h2⟩)
      · exact ⟨x, by simp [hx], by simp⟩
      · exact ⟨x, by simp [h1], by simp [h2]⟩
    · rintro ⟨x, h1, h2⟩
      rcases List.mem_cons.1 h1 with rfl | h1
      · rcases List.mem_cons.1 h2 with e | h2
        · exact absurd e (Lit.neg_ne _)
        · left; exact ⟨_, h2, by simp⟩
      · rcases List.mem_cons.1 h2 with e | h2
        · left; exact ⟨x, h1, e.symm⟩
        · right; exact ⟨x, h1, h2⟩

theorem evaluate_fold (a : Assignment) (c : List Lit) (v : TernaryVal) :
    c.foldl (evalStep a) v =
      if v = .true ∨ ∃ l ∈ c, a.litValue l = .true then .true
      else if v = .dontCare ∨ ∃ l ∈ c, a.litValue l = .dontCare then .dontCare else .false := by
  induction c generalizing v with
  | nil => cases v <;> simp
  | cons l ls ih =>
    rw [List.foldl_cons, ih]
    cases h : a.litValue l <;> cases v <;> simp [evalStep, h]

theorem swapRemove_perm (c : List Lit) (i : Nat) (h : i < c.length) : (c[i] :: swapRemove c i).Perm c := by
  unfold swapRemove
  have hne : c ≠ [] := by intro e; subst e; simp at h
  obtain ⟨init, last, rfl⟩ : ∃ init last, c = init ++ [last] :=
    ⟨c.dropLast, c.getLast hne, (List.dropLast_concat_getLast hne).symm⟩
  simp only [List.getLast?_append, List.getLast?_singleton, Option.some_or]
  simp only [List.length_append, List.length_singleton] at h
  by_cases hi : i < init.length
  · have e1 : (init ++ [last]).set i last = init.set i last ++ [last] := List.set_append_left _ _ hi
    rw [e1, List.dropLast_concat]
    have e2 : (init ++ [last])[i] = init[i] := List.getElem_append_left hi
    rw [e2]
    have : init.set i last = init.take i ++ last :: init.drop (i+1) := List.set_eq_take_append_cons_drop .. |>.trans (by simp [hi])
    rw [this]
    have h3 : init = init.take i ++ init[i] :: init.drop (i+1) := by
      rw [List.getElem_cons_drop, List.take_append_drop]
    have p1 : (init ++ [last]).Perm (init.take i ++ init[i] :: init.drop (i+1) ++ [last]) := by
      rw [← h3]
    refine List.Perm.trans ?_ p1.symm
    generalize init.take i = A
    generalize init.drop (i+1) = B
    generalize init[i] = z
    have q1 : (A ++ last :: B).Perm (last :: (A ++ B)) := List.perm_middle
    have q2 : (A ++ z :: B ++ [last]).Perm (z :: (A ++ B ++ [last])) := by
      rw [List.append_assoc, List.append_assoc]; exact List.perm_middle
    refine List.Perm.trans ?_ q2.symm
    refine List.Perm.cons _ (q1.trans ?_)
    exact (List.perm_append_singleton last (A ++ B)).symm
  · have hi' : i = init.length := by omega
    subst hi'
    have e1 : (init ++ [last]).set init.length last = init ++ [last] := by simp
    rw [e1, List.dropLast_concat]
    simp only [List.getElem_concat_length]
    exact (List.perm_append_singleton last init).symm

theorem occIdxs_shift (l : Lit) (i : Nat) (c : List Lit) :
    occIdxs l (i + 1) c = (occIdxs l i c).map (· + 1) := by
  induction c generalizing i with
  | nil => rfl
  | cons x xs ih => simp only [occIdxs]; split <;> simp [ih]

theorem eraseIdx_fold_cons (x : Lit) (idxs : List Nat) (c : List Lit) :
    (idxs.map (· + 1)).foldl (fun c i => c.eraseIdx i) (x :: c) =
      x :: idxs.foldl (fun c i => c.eraseIdx i) c := by
  induction idxs generalizing c with
  | nil => rfl
  | cons i is ih => simp [ih]

theorem removeThorough_fst (c : List Lit) (l : Lit) :
    (removeThorough c l).1 = c.filter (fun x => decide (x ≠ l)) := by
  unfold removeThorough
  induction c with
  | nil => rfl
  | cons x xs ih =>
    simp only at ih ⊢
    unfold occIdxs
    rw [occIdxs_shift]
    by_cases h : x = l
    · rw [if_pos h, List.reverse_cons, List.foldl_append, ← List.map_reverse, eraseIdx_fold_cons, ih]
      simp [h]
    · rw [if_neg h, ← List.map_reverse, eraseIdx_fold_cons, ih]
      simp [h]

theorem occIdxs_isEmpty (l : Lit) (i : Nat) (c : List Lit) : (occIdxs l i c).isEmpty = true ↔ l ∉ c := by
  induction c generalizing i with
  | nil => simp [occIdxs]
  | cons x xs ih =>
    unfold occIdxs
    by_cases h : x = l
    · simp [h]
    · rw [if_neg h, ih]; simp; intro _ e; exact h e.symm

end Clause
end RustSat
