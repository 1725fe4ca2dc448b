import Verif.Spec.OpSeq
/-
Lemmas for C107.
-/
namespace RustSat
namespace Pigeons

namespace IntOpSeq
theorem items_push (s : IntOpSeq) (o : Op) : (s.push o).items = s.items ++ [o] := by cases s <;> rfl
theorem canon_push (s : IntOpSeq) (o : Op) (h : s.Canon) : (s.push o).Canon := by
  cases s <;> simp only [push, Canon, List.length_append, List.length_cons, List.length_nil] at h ⊢ <;> omega
theorem collect_eq (s : IntOpSeq) (is : List Op) : s.collect is = s.items ++ is := by cases s <;> rfl
theorem isEmpty_iff (s : IntOpSeq) (h : s.Canon) : s.isEmpty = true ↔ s.items = [] := by
  cases s with
  | empty => simp [isEmpty, items]
  | singleton o => simp [isEmpty, items]
  | sequence seq => cases seq <;> simp [isEmpty, items, Canon] at h ⊢

/-- `extend` appends the items for every iterator whose size hint is right. -/
theorem extend_spec (s : IntOpSeq) (lo : Nat) (hi : Option Nat) (is : List Op) (hs : s.Canon)
    (h1 : lo ≤ is.length) (h2 : ∀ h, hi = some h → is.length ≤ h) :
    (s.extend lo hi is).items = s.items ++ is ∧ (s.extend lo hi is).Canon := by
  unfold extend
  by_cases hl : lo > 1
  · rw [if_pos hl, collect_eq]
    exact ⟨rfl, by simp only [Canon, List.length_append]; omega⟩
  · rw [if_neg hl]
    by_cases hh : hi = some 1
    · rw [if_pos hh]
      have := h2 1 hh
      match is, this with
      | [], _ => exact ⟨by simp, hs⟩
      | [x], _ => exact ⟨items_push s x, canon_push s x hs⟩
    · rw [if_neg hh, ← collect_eq]
      match e : s.collect is with
      | [] => exact ⟨rfl, trivial⟩
      | [x] => exact ⟨rfl, trivial⟩
      | x :: y :: r => exact ⟨rfl, by simp [Canon]⟩

theorem extendSeq_spec (s r : IntOpSeq) (hs : s.Canon) :
    (s.extendSeq r).items = s.items ++ r.items ∧ (s.extendSeq r).Canon :=
  extend_spec s 0 none r.items hs (Nat.zero_le _) (fun _ h => by cases h)

theorem add_spec (s r : IntOpSeq) (hs : s.Canon) (hr : r.Canon) :
    (s.add r).items = (if s.items = [] then r.items else if r.items = [] then s.items else s.items ++ r.items ++ [.add]) ∧
    (s.add r).Canon := by
  have e1 := isEmpty_iff s hs
  have e2 := isEmpty_iff r hr
  unfold add
  by_cases h1 : s.items = []
  · rw [if_pos (e1.2 h1), if_pos h1]; exact ⟨rfl, hr⟩
  · rw [if_neg (fun h => h1 (e1.1 h)), if_neg h1]
    by_cases h2 : r.items = []
    · rw [if_pos (e2.2 h2), if_pos h2]; exact ⟨rfl, hs⟩
    · rw [if_neg (fun h => h2 (e2.1 h)), if_neg h2, items_push, (extendSeq_spec s r hs).1]
      exact ⟨rfl, canon_push _ _ (extendSeq_spec s r hs).2⟩

theorem addAssign_spec (s r : IntOpSeq) (hs : s.Canon) (hr : r.Canon) :
    (s.addAssign r).items = (if s.items = [] then r.items else if r.items = [] then s.items else s.items ++ r.items ++ [.add]) ∧
    (s.addAssign r).Canon := by
  have e1 := isEmpty_iff s hs
  have e2 := isEmpty_iff r hr
  unfold addAssign
  by_cases h2 : r.items = []
  · simp only [if_pos (e2.2 h2), if_pos h2, h2]
    refine ⟨?_, hs⟩
    split
    · assumption
    · rfl
  · simp only [if_neg (fun h => h2 (e2.1 h)), if_neg h2]
    by_cases h1 : s.items = []
    · simp only [if_pos (e1.2 h1), if_pos h1, (extendSeq_spec s r hs).1]
      exact ⟨by simp [h1], (extendSeq_spec s r hs).2⟩
    · simp only [if_neg (fun h => h1 (e1.1 h)), if_neg h1, items_push, (extendSeq_spec s r hs).1]
      exact ⟨trivial, canon_push _ _ (extendSeq_spec s r hs).2⟩

theorem pushIf_spec (s : IntOpSeq) (o : Op) (hs : s.Canon) :
    (if !s.isEmpty then s.push o else s).items = (if s.items = [] then [] else s.items ++ [o]) ∧
    (if !s.isEmpty then s.push o else s).Canon := by
  have e1 := isEmpty_iff s hs
  by_cases h1 : s.items = []
  · simp [e1.2 h1, h1, hs]
  · have : s.isEmpty = false := by simpa using fun h => h1 (e1.1 h)
    simp [this, h1, items_push, canon_push _ _ hs]
end IntOpSeq

end Pigeons
end RustSat
