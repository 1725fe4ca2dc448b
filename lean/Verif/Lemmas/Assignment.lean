import Verif.Spec.Assignment
import Verif.Lemmas.Lit

namespace RustSat
namespace Assignment

@[simp] theorem varValue_empty (v : Nat) : empty.varValue v = .dontCare := by
  simp [varValue, empty]

theorem varValue_eq (a : Assignment) (v : Nat) : a.varValue v = (a.vals[v]?).getD .dontCare := by
  unfold varValue
  split
  · rename_i h; simp [List.getElem?_eq_none h]
  · rename_i h; simp [List.getElem?_eq_getElem (Nat.lt_of_not_le h)]

theorem len_assignVar (a : Assignment) (v : Nat) (t : TernaryVal) :
    (a.assignVar v t).len = max a.len (v + 1) := by
  unfold assignVar len
  simp only [List.length_set]
  split
  · rw [List.length_append, List.length_replicate]; omega
  · omega

theorem varValue_assignVar (a : Assignment) (v u : Nat) (t : TernaryVal) :
    (a.assignVar v t).varValue u = if u = v then t else a.varValue u := by
  simp only [varValue_eq, assignVar]
  rw [List.getElem?_set]
  by_cases h : u = v
  · subst h
    rw [if_pos rfl, if_pos rfl, if_pos]
    · rfl
    · split
      · rw [List.length_append, List.length_replicate]; omega
      · omega
  · rw [if_neg h, if_neg (fun e => h e.symm)]
    split
    · rw [List.getElem?_append]
      split
      · rfl
      · rename_i h1 h2
        rw [List.getElem?_eq_none (Nat.le_of_not_lt h2), List.getElem?_replicate]
        split <;> rfl
    · rfl

theorem varValue_assignLit (a : Assignment) (l : Lit) (u : Nat) :
    (a.assignLit l).varValue u =
      if u = l.var then (if l.isNeg then .false else .true) else a.varValue u := by
  rw [assignLit, varValue_assignVar, Lit.isPos_eq]
  cases l.isNeg <;> simp

theorem litValue_assignLit_self (a : Assignment) (l : Lit) : (a.assignLit l).litValue l = .true := by
  unfold litValue
  rw [varValue_assignLit]
  cases h : l.isNeg <;> simp

theorem varValue_replaceDontCare (a : Assignment) (d : Bool) (u : Nat) :
    (a.replaceDontCare d).varValue u =
      if u < a.len ∧ a.varValue u = .dontCare then TernaryVal.ofBool d else a.varValue u := by
  simp only [varValue_eq, replaceDontCare, List.getElem?_map, len]
  cases h : a.vals[u]? with
  | none => simp at h ⊢; omega
  | some t =>
    have : u < a.vals.length := by
      rcases Nat.lt_or_ge u a.vals.length with h' | h'
      · exact h'
      · rw [List.getElem?_eq_none h'] at h; cases h
    cases t <;> simp [this, TernaryVal.ofBool]

theorem varValue_truncate (a : Assignment) (mv u : Nat) :
    (a.truncate mv).varValue u = if u ≤ mv then a.varValue u else .dontCare := by
  simp only [varValue_eq, truncate, List.getElem?_take]
  split
  · rw [if_pos (by omega)]
  · rw [if_neg (by omega)]; rfl

theorem litValue_true_iff (a : Assignment) (l : Lit) :
    a.litValue l = .true ↔ a.varValue l.var = (if l.isNeg then .false else .true) := by
  unfold litValue
  cases l.isNeg <;> cases a.varValue l.var <;> simp

theorem litValue_false_iff (a : Assignment) (l : Lit) :
    a.litValue l = .false ↔ a.varValue l.var = (if l.isNeg then .true else .false) := by
  unfold litValue
  cases l.isNeg <;> cases a.varValue l.var <;> simp

theorem holds_of_litValue {a : Assignment} {b : Asg} (h : a.completedBy b) (l : Lit) :
    (a.litValue l = .true → l.holds b = true) ∧ (a.litValue l = .false → l.holds b = false) := by
  have := h l.var
  constructor
  · intro h1
    rw [litValue_true_iff] at h1
    unfold Lit.holds
    cases hn : l.isNeg <;> simp [hn] at h1 ⊢
    · exact this.1 h1
    · exact this.2 h1
  · intro h1
    rw [litValue_false_iff] at h1
    unfold Lit.holds
    cases hn : l.isNeg <;> simp [hn] at h1 ⊢
    · exact this.2 h1
    · exact this.1 h1

/-- Membership in the enumerated iterator with an always succeeding constructor. -/
theorem iterFrom_spec (mk : Nat → Bool → Option Lit) (n : Nat)
    (hmk : ∀ i b, i < n → mk i b = some (Lit.mk' i b)) :
    ∀ (ts : List TernaryVal) (i : Nat), i + ts.length ≤ n →
      ∃ r, iterFrom mk i ts = some r ∧
        (∀ l, l ∈ r ↔ ∃ k, k < ts.length ∧ l.var = i + k ∧
          ts[k]? = some (if l.isNeg then .false else .true)) ∧
        r.Pairwise (fun x y => x.var < y.var)
  | [], i, _ => ⟨[], rfl, by simp, List.Pairwise.nil⟩
  | t :: ts, i, h => by
    simp only [List.length_cons] at h
    obtain ⟨r, hr, hmem, hp⟩ := iterFrom_spec mk n hmk ts (i + 1) (by omega)
    have shift : ∀ l : Lit, (∃ k, k < ts.length ∧ l.var = i + 1 + k ∧
          ts[k]? = some (if l.isNeg then TernaryVal.false else .true)) ↔
        (∃ k, k < (t :: ts).length ∧ l.var = i + k ∧ 0 < k ∧
          (t :: ts)[k]? = some (if l.isNeg then TernaryVal.false else .true)) := by
      intro l
      constructor
      · rintro ⟨k, h1, h2, h3⟩
        exact ⟨k + 1, by simp; omega, by omega, by omega, by simpa using h3⟩
      · rintro ⟨k, h1, h2, h3, h4⟩
        obtain ⟨k, rfl⟩ : ∃ j, k = j + 1 := ⟨k - 1, by omega⟩
        exact ⟨k, by simpa using h1, by omega, by simpa using h4⟩
    have hgt : ∀ l ∈ r, i < l.var := by
      intro l hl
      obtain ⟨k, _, h2, _⟩ := (hmem l).1 hl
      omega
    have split : ∀ l : Lit, (∃ k, k < (t :: ts).length ∧ l.var = i + k ∧
          (t :: ts)[k]? = some (if l.isNeg then TernaryVal.false else .true)) ↔
        ((l.var = i ∧ t = (if l.isNeg then TernaryVal.false else .true)) ∨ l ∈ r) := by
      intro l
      rw [hmem, shift]
      constructor
      · rintro ⟨k, h1, h2, h3⟩
        by_cases hk : k = 0
        · subst hk; left; refine ⟨by omega, ?_⟩; simpa using h3
        · right; exact ⟨k, h1, h2, by omega, h3⟩
      · rintro (⟨h1, h2⟩ | ⟨k, h1, h2, _, h3⟩)
        · exact ⟨0, by simp, by omega, by simp [h2]⟩
        · exact ⟨k, h1, h2, h3⟩
    cases t with
    | dontCare =>
      refine ⟨r, by simpa [iterFrom] using hr, ?_, hp⟩
      intro l
      rw [split]
      constructor
      · exact Or.inr
      · rintro (⟨_, h2⟩ | h2)
        · cases hn : l.isNeg <;> simp [hn] at h2
        · exact h2
    | true =>
      refine ⟨Lit.mk' i Bool.false :: r, by simp [iterFrom, hmk i _ (by omega), hr], ?_, ?_⟩
      · intro l
        rw [split, List.mem_cons]
        constructor
        · rintro (rfl | h)
          · left; simp
          · exact Or.inr h
        · rintro (⟨h1, h2⟩ | h)
          · left
            apply Lit.ext_var
            · simpa using h1
            · cases hn : l.isNeg <;> simp [hn] at h2 ⊢
          · exact Or.inr h
      · refine List.Pairwise.cons ?_ hp
        intro x hx; simpa using hgt x hx
    | false =>
      refine ⟨Lit.mk' i Bool.true :: r, by simp [iterFrom, hmk i _ (by omega), hr], ?_, ?_⟩
      · intro l
        rw [split, List.mem_cons]
        constructor
        · rintro (rfl | h)
          · left; simp
          · exact Or.inr h
        · rintro (⟨h1, h2⟩ | h)
          · left
            apply Lit.ext_var
            · simpa using h1
            · cases hn : l.isNeg <;> simp [hn] at h2 ⊢
          · exact Or.inr h
      · refine List.Pairwise.cons ?_ hp
        intro x hx; simpa using hgt x hx

end Assignment
end RustSat
