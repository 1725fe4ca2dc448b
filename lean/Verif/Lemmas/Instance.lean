import Verif.Spec.Instance
import Verif.Lemmas.Constraints
import Verif.Lemmas.Clause
/-
Lemmas about atomics, CNFs, instances and variable managers.
-/
namespace RustSat

theorem Clause.sat_map_neg (a : Asg) (c : List Lit) : Clause.sat a (c.map Lit.neg) ↔ ¬ cubeSat a c := by
  simp only [Clause.sat, cubeSat, List.mem_map]
  constructor
  · rintro ⟨_, ⟨x, hx, rfl⟩, h⟩ hc
    rw [Lit.holds_neg, hc x hx] at h; simp at h
  · intro h
    apply Classical.byContradiction
    intro hn
    apply h
    intro l hl
    cases hh : l.holds a with
    | true => rfl
    | false => exact absurd ⟨l.neg, ⟨l, hl, rfl⟩, by rw [Lit.holds_neg, hh]; rfl⟩ hn

theorem ClauseSet.sat_map {α : Type} (a : Asg) (f : α → Clause) (xs : List α) :
    ClauseSet.sat a (xs.map f) ↔ ∀ x ∈ xs, Clause.sat a (f x) := by
  simp [ClauseSet.sat]

theorem ClauseSet.sat_filterMap (a : Asg) (g : Clause → Option Clause) (f : ClauseSet)
    (h : ∀ c ∈ f, match g c with | none => Clause.sat a c | some d => (Clause.sat a d ↔ Clause.sat a c)) :
    ClauseSet.sat a (f.filterMap g) ↔ ClauseSet.sat a f := by
  induction f with
  | nil => simp
  | cons c f ih =>
    have h1 := h c (List.mem_cons_self ..)
    have h2 := ih (fun d hd => h d (List.mem_cons_of_mem _ hd))
    cases hg : g c with
    | none => rw [hg] at h1; simp [List.filterMap_cons, hg, h2, h1]
    | some d => rw [hg] at h1; simp [List.filterMap_cons, hg, h2, h1]

theorem Clause.taut_sat {c : Clause} (h : Clause.Taut c) (a : Asg) : Clause.sat a c := by
  obtain ⟨l, h1, h2⟩ := h
  cases hh : l.holds a with
  | true => exact ⟨l, h1, hh⟩
  | false => exact ⟨l.neg, h2, by rw [Lit.holds_neg, hh]; rfl⟩

theorem Clause.sat_sanitize (a : Asg) (c : Clause) :
    match Clause.sanitize c with | none => Clause.sat a c | some d => (Clause.sat a d ↔ Clause.sat a c) := by
  rcases Clause.sanitize_spec c with ⟨h, ht⟩ | ⟨d, h, _, _, hm, _⟩
  · rw [h]; exact Clause.taut_sat ht a
  · rw [h]; exact Clause.sat_congr hm

theorem Clause.sat_normalize (a : Asg) (c : Clause) :
    match Clause.normalize c with | none => Clause.sat a c | some d => (Clause.sat a d ↔ Clause.sat a c) := by
  rcases Clause.normalize_spec c with ⟨h, ht⟩ | ⟨d, h, _, _, hm⟩
  · rw [h]; exact Clause.taut_sat ht a
  · rw [h]; exact Clause.sat_congr hm

namespace Cnf

theorem mem_dedup (c : Clause) (f : List Clause) : c ∈ dedup f ↔ c ∈ f := by
  fun_induction dedup f with
  | case1 => simp
  | case2 => simp
  | case3 x rest ih => rw [ih]; simp
  | case4 x y rest h ih => simp [ih]

theorem clauseLe_refl (x : Clause) : clauseLe x x = true := by
  induction x with
  | nil => rfl
  | cons l x ih => simp [clauseLe, ih]

theorem clauseLe_total (x y : Clause) : (clauseLe x y || clauseLe y x) = true := by
  induction x generalizing y with
  | nil => simp [clauseLe]
  | cons l x ih =>
    cases y with
    | nil => simp [clauseLe]
    | cons m y =>
      simp only [clauseLe]
      by_cases h1 : l.lidx < m.lidx
      · simp [h1]
      · by_cases h2 : m.lidx < l.lidx
        · simp [h2]
        · simp only [h1, h2, if_false]; exact ih y

theorem clauseLe_cons (l m : Lit) (x y : Clause) :
    clauseLe (l :: x) (m :: y) = true ↔ l.lidx < m.lidx ∨ (l.lidx = m.lidx ∧ clauseLe x y = true) := by
  simp only [clauseLe]
  by_cases h1 : l.lidx < m.lidx
  · simp [h1]
  · by_cases h2 : m.lidx < l.lidx
    · simp [h1, h2]; omega
    · have : l.lidx = m.lidx := by omega
      simp [this]

theorem clauseLe_trans (x y z : Clause) : clauseLe x y = true → clauseLe y z = true → clauseLe x z = true := by
  induction x generalizing y z with
  | nil => simp [clauseLe]
  | cons l x ih =>
    cases y with
    | nil => simp [clauseLe]
    | cons m y =>
      cases z with
      | nil => simp [clauseLe]
      | cons n z =>
        simp only [clauseLe_cons]
        rintro (h1 | ⟨h1, h1'⟩) (h2 | ⟨h2, h2'⟩)
        · left; omega
        · left; omega
        · left; omega
        · right; exact ⟨by omega, ih y z h1' h2'⟩

theorem clauseLe_antisymm (x y : Clause) (h1 : clauseLe x y = true) (h2 : clauseLe y x = true) : x = y := by
  induction x generalizing y with
  | nil => cases y with
    | nil => rfl
    | cons m y => simp [clauseLe] at h2
  | cons l x ih =>
    cases y with
    | nil => simp [clauseLe] at h1
    | cons m y =>
      simp only [clauseLe] at h1 h2
      by_cases ha : l.lidx < m.lidx
      · have hb : ¬ m.lidx < l.lidx := by omega
        simp [ha, hb] at h2
      · by_cases hb : m.lidx < l.lidx
        · simp [ha, hb] at h1
        · simp only [ha, hb, if_false] at h1 h2
          have : l = m := (Lit.ext_iff' l m).2 (by omega)
          rw [this, ih y h1 h2]

/-- Strictly increasing lists of clauses. -/
def ClauseSorted (f : List Clause) : Prop := f.Pairwise fun x y => clauseLe x y = true ∧ x ≠ y

theorem sorted_dedup (f : List Clause) (h : f.Pairwise fun x y => clauseLe x y = true) :
    ClauseSorted (dedup f) := by
  unfold ClauseSorted
  fun_induction dedup f with
  | case1 => simp
  | case2 => simp
  | case3 x rest ih => exact ih h.tail
  | case4 x y rest hne ih =>
    refine List.Pairwise.cons ?_ (ih h.tail)
    intro z hz
    rw [mem_dedup] at hz
    have hxz : clauseLe x z = true := List.rel_of_pairwise_cons h hz
    refine ⟨hxz, fun he => ?_⟩
    subst he
    rcases List.mem_cons.1 hz with he | hz
    · exact hne he
    · have hxy := List.rel_of_pairwise_cons h (List.mem_cons_self ..)
      have hyx : clauseLe y x = true := List.rel_of_pairwise_cons h.tail hz
      exact hne (clauseLe_antisymm _ _ hxy hyx)

theorem ClauseSorted.ext {x y : List Clause} (hx : ClauseSorted x) (hy : ClauseSorted y)
    (h : ∀ c, c ∈ x ↔ c ∈ y) : x = y := by
  unfold ClauseSorted at hx hy
  have hp : x.Perm y := (List.perm_ext_iff_of_nodup (hx.imp fun h => h.2) (hy.imp fun h => h.2)).2 h
  exact List.Perm.eq_of_pairwise (le := fun a b : Clause => clauseLe a b = true ∧ a ≠ b)
    (fun a b _ _ h1 h2 => clauseLe_antisymm a b h1.1 h2.1) hx hy hp

theorem mem_normalize (c : Clause) (f : ClauseSet) :
    c ∈ Cnf.normalize f ↔ ∃ d ∈ f, Clause.normalize d = some c := by
  unfold Cnf.normalize
  rw [mem_dedup, (List.mergeSort_perm _ _).mem_iff, List.mem_filterMap]

theorem sorted_normalize (f : ClauseSet) : ClauseSorted (Cnf.normalize f) :=
  sorted_dedup _ (List.pairwise_mergeSort clauseLe_trans clauseLe_total _)

theorem evalLoop_spec (ts : List TernaryVal) (v : TernaryVal) (hv : v ≠ .false) :
    evalLoop v ts = if TernaryVal.false ∈ ts then .false
      else if v = .dontCare ∨ TernaryVal.dontCare ∈ ts then .dontCare else .true := by
  induction ts generalizing v with
  | nil => cases v <;> simp [evalLoop] at hv ⊢
  | cons t ts ih =>
    cases t with
    | true => simp only [evalLoop]; rw [ih v hv]; simp
    | false => simp [evalLoop]
    | dontCare => simp only [evalLoop]; rw [ih .dontCare (by simp)]; simp

end Cnf
end RustSat
