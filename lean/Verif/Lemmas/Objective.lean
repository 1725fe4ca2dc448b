import Verif.Spec.Objective
import Verif.Lemmas.VarManager
import Verif.Lemmas.Instance
/-
Lemmas about objectives.
-/
namespace RustSat

/-- Total weight of the entries whose key satisfies `p`. -/
def msum {α : Type} (p : α → Bool) : List (α × Nat) → Nat
  | [] => 0
  | (k, w) :: m => (if p k then w else 0) + msum p m

theorem wsum_eq_msum (a : Asg) (m : List (Lit × Nat)) : wsum a m = msum (fun l => l.holds a) m := by
  induction m with
  | nil => rfl
  | cons x m ih => obtain ⟨k, w⟩ := x; simp only [wsum, msum, ih]

theorem clsCost_eq_msum (a : Asg) (m : List (Clause × Nat)) : clsCost a m = msum (Clause.falsified a) m := by
  induction m with
  | nil => rfl
  | cons x m ih => obtain ⟨k, w⟩ := x; simp only [clsCost, msum, ih]

theorem countTrue_eq_countP (a : Asg) (m : List Lit) : countTrue a m = m.countP (fun l => l.holds a) := by
  induction m with
  | nil => rfl
  | cons x m ih => rw [List.countP_cons, countTrue, ih]; omega

theorem countFalsified_eq_countP (a : Asg) (m : List Clause) : countFalsified a m = m.countP (Clause.falsified a) := by
  induction m with
  | nil => rfl
  | cons x m ih => rw [List.countP_cons, countFalsified, ih]; omega

theorem Clause.falsified_eq (a : Asg) (c : Clause) : Clause.falsified a c = true ↔ ¬ Clause.sat a c := by
  simp [Clause.falsified, Clause.sat]

theorem Clause.falsified_congr {a : Asg} {c d : Clause} (h : Clause.sat a c ↔ Clause.sat a d) :
    Clause.falsified a c = Clause.falsified a d := by
  rw [Bool.eq_iff_iff, falsified_eq, falsified_eq, h]

@[simp] theorem Clause.falsified_singleton (a : Asg) (l : Lit) : Clause.falsified a [l] = !l.holds a := by
  simp [Clause.falsified]

section
variable {α : Type} (p : α → Bool)

@[simp] theorem msum_nil : msum p [] = 0 := rfl
@[simp] theorem msum_cons (x : α × Nat) (m : List (α × Nat)) :
    msum p (x :: m) = (if p x.1 then x.2 else 0) + msum p m := rfl
@[simp] theorem msum_append (m n : List (α × Nat)) : msum p (m ++ n) = msum p m + msum p n := by
  induction m with
  | nil => simp
  | cons x m ih => simp [ih]; omega

theorem msum_le (m : List (α × Nat)) : msum p m ≤ m.foldl (fun s q => s + q.2) 0 := by
  have : ∀ k, k + msum p m ≤ m.foldl (fun s q => s + q.2) k := by
    induction m with
    | nil => simp
    | cons x m ih =>
      intro k
      rw [List.foldl_cons]
      have := ih (k + x.2)
      rw [msum_cons]
      split <;> omega
  simpa using this 0

theorem msum_const (u : Nat) (m : List (α × Nat)) (h : ∀ q ∈ m, q.2 = u) :
    msum p m = u * (m.map (·.1)).countP p := by
  induction m with
  | nil => simp
  | cons x m ih =>
    rw [msum_cons, ih fun q hq => h q (List.mem_cons_of_mem _ hq), List.map_cons, List.countP_cons,
      h x (List.mem_cons_self ..), Nat.mul_add]
    split <;> omega

variable [DecidableEq α]

theorem HMap.get_of_not_mem {m : List (α × Nat)} {k : α} (h : k ∉ m.map (·.1)) : HMap.get m k = none := by
  induction m with
  | nil => rfl
  | cons x m ih =>
    obtain ⟨x1, x2⟩ := x
    simp only [List.map_cons, List.mem_cons, not_or] at h
    rw [HMap.get, if_neg (fun e => h.1 e.symm), ih h.2]

theorem HMap.remove_of_not_mem {m : List (α × Nat)} {k : α} (h : k ∉ m.map (·.1)) : HMap.remove m k = m := by
  simp only [HMap.remove, List.filter_eq_self, decide_eq_true_eq]
  intro q hq e
  exact h (List.mem_map.2 ⟨q, hq, e⟩)

theorem HMap.mem_of_get {m : List (α × Nat)} {k : α} {w : Nat} (h : HMap.get m k = some w) : (k, w) ∈ m := by
  induction m with
  | nil => cases h
  | cons x m ih =>
    obtain ⟨x1, x2⟩ := x
    rw [HMap.get] at h
    by_cases e : x1 = k
    · rw [if_pos e] at h; cases h; rw [e]; exact List.mem_cons_self ..
    · rw [if_neg e] at h; exact List.mem_cons_of_mem _ (ih h)

theorem HMap.mem_remove {m : List (α × Nat)} {k : α} {q : α × Nat} :
    q ∈ HMap.remove m k ↔ q ∈ m ∧ q.1 ≠ k := by
  simp [HMap.remove, List.mem_filter]

theorem HMap.mem_insert {m : List (α × Nat)} {k : α} {w : Nat} {q : α × Nat} :
    q ∈ HMap.insert m k w ↔ (q ∈ m ∧ q.1 ≠ k) ∨ q = (k, w) := by
  simp [HMap.insert, HMap.mem_remove]

theorem HMap.nodup_remove {m : List (α × Nat)} (h : (m.map (·.1)).Nodup) (k : α) :
    ((HMap.remove m k).map (·.1)).Nodup :=
  h.sublist (List.filter_sublist.map _)

theorem HMap.nodup_insert {m : List (α × Nat)} (h : (m.map (·.1)).Nodup) (k : α) (w : Nat) :
    ((HMap.insert m k w).map (·.1)).Nodup := by
  simp only [HMap.insert, List.map_append, List.map_cons, List.map_nil]
  rw [List.nodup_append]
  refine ⟨HMap.nodup_remove h k, by simp, ?_⟩
  intro x hx y hy e
  obtain ⟨q, hq, rfl⟩ := List.mem_map.1 hx
  simp at hy
  exact (HMap.mem_remove.1 hq).2 (e.trans hy)

theorem HMap.nodup_addTo {m : List (α × Nat)} (h : (m.map (·.1)).Nodup) (k : α) (w : Nat) :
    ((HMap.addTo m k w).map (·.1)).Nodup := HMap.nodup_insert h k _

theorem HMap.msum_remove {m : List (α × Nat)} (h : (m.map (·.1)).Nodup) (k : α) :
    msum p m = msum p (HMap.remove m k) + if p k then (HMap.get m k).getD 0 else 0 := by
  induction m with
  | nil => simp [HMap.remove, HMap.get]
  | cons x m ih =>
    obtain ⟨x1, x2⟩ := x
    simp only [List.map_cons, List.nodup_cons] at h
    by_cases e : x1 = k
    · subst e
      have : HMap.remove ((x1, x2) :: m) x1 = m := by
        rw [show HMap.remove ((x1, x2) :: m) x1 = HMap.remove m x1 by simp [HMap.remove]]
        exact HMap.remove_of_not_mem h.1
      rw [this]; simp [HMap.get]; omega
    · have : HMap.remove ((x1, x2) :: m) k = (x1, x2) :: HMap.remove m k := by simp [HMap.remove, e]
      rw [this, msum_cons, msum_cons, ih h.2, HMap.get, if_neg e]; simp only; omega

theorem HMap.msum_insert (m : List (α × Nat)) (k : α) (w : Nat) :
    msum p (HMap.insert m k w) = msum p (HMap.remove m k) + if p k then w else 0 := by
  simp [HMap.insert]

theorem HMap.msum_addTo {m : List (α × Nat)} (h : (m.map (·.1)).Nodup) (k : α) (w : Nat) :
    msum p (HMap.addTo m k w) = msum p m + if p k then w else 0 := by
  rw [HMap.addTo, HMap.msum_insert, HMap.msum_remove p h k]
  split <;> omega

theorem foldl_addTo (u : Nat) (l : List α) (m : List (α × Nat)) (h : (m.map (·.1)).Nodup) :
    ((l.foldl (fun m k => HMap.addTo m k u) m).map (·.1)).Nodup ∧
    msum p (l.foldl (fun m k => HMap.addTo m k u) m) = msum p m + u * l.countP p := by
  induction l generalizing m with
  | nil => exact ⟨h, by simp⟩
  | cons x l ih =>
    rw [List.foldl_cons]
    obtain ⟨h1, h2⟩ := ih (HMap.addTo m x u) (HMap.nodup_addTo h x u)
    refine ⟨h1, ?_⟩
    rw [h2, HMap.msum_addTo p h, List.countP_cons, Nat.mul_add]
    split <;> omega

theorem mem_foldl_addTo {u : Nat} {l : List α} {m : List (α × Nat)} {q : α × Nat}
    (h : q ∈ l.foldl (fun m k => HMap.addTo m k u) m) : (∃ r ∈ m, r.1 = q.1) ∨ q.1 ∈ l := by
  induction l generalizing m with
  | nil => exact .inl ⟨q, h, rfl⟩
  | cons x l ih =>
    rw [List.foldl_cons] at h
    rcases ih h with ⟨r, hr, e⟩ | h
    · rcases HMap.mem_insert.1 hr with ⟨hr, _⟩ | rfl
      · exact .inl ⟨r, hr, e⟩
      · exact .inr (by rw [← e]; exact List.mem_cons_self ..)
    · exact .inr (List.mem_cons_of_mem _ h)

omit [DecidableEq α] in
theorem foldl_replicate (m : List (α × Nat)) (v : List α) :
    (m.foldl (fun v q => v ++ List.replicate q.2 q.1) v).countP p = v.countP p + msum p m := by
  induction m generalizing v with
  | nil => simp
  | cons x m ih =>
    rw [List.foldl_cons, ih, List.countP_append, List.countP_replicate, msum_cons]
    omega

omit [DecidableEq α] in
theorem mem_foldl_replicate {m : List (α × Nat)} {v : List α} {x : α}
    (h : x ∈ m.foldl (fun v q => v ++ List.replicate q.2 q.1) v) : x ∈ v ∨ ∃ q ∈ m, q.1 = x := by
  induction m generalizing v with
  | nil => exact .inl h
  | cons y m ih =>
    rw [List.foldl_cons] at h
    rcases ih h with h | ⟨q, hq, e⟩
    · rcases List.mem_append.1 h with h | h
      · exact .inl h
      · exact .inr ⟨y, List.mem_cons_self .., (List.eq_of_mem_replicate h).symm⟩
    · exact .inr ⟨q, List.mem_cons_of_mem _ hq, e⟩

omit [DecidableEq α] in
theorem countP_vecSwapRemove (l : List α) (i : Nat) (hi : i < l.length) :
    l.countP p = (vecSwapRemove l i).countP p + if p l[i] then 1 else 0 := by
  rcases List.eq_nil_or_concat l with rfl | ⟨init, x, rfl⟩
  · simp at hi
  · simp only [List.concat_eq_append] at hi ⊢
    simp only [List.length_append, List.length_cons, List.length_nil] at hi
    simp only [vecSwapRemove, List.getLast?_append, List.getLast?_singleton, Option.some_or]
    by_cases h : i < init.length
    · rw [List.set_append_left _ _ h, List.dropLast_concat, List.countP_set h, List.countP_append,
        List.getElem_append_left h]
      have : init.countP p ≥ if p init[i] then 1 else 0 := by
        split
        · rename_i hp; exact List.countP_pos_iff.2 ⟨init[i], List.getElem_mem _, hp⟩
        · omega
      simp; omega
    · have e : i = init.length := by omega
      subst e
      simp

omit [DecidableEq α] in
theorem isort_perm (le : α → α → Bool) (l : List α) : (isort le l).Perm l := by
  have hins : ∀ x l, (isort.ins le x l).Perm (x :: l) := by
    intro x l
    induction l with
    | nil => exact List.Perm.refl _
    | cons y l ih =>
      rw [isort.ins]
      split
      · exact List.Perm.refl _
      · exact (List.Perm.cons y ih).trans (List.Perm.swap x y l)
  induction l with
  | nil => exact List.Perm.refl _
  | cons x l ih => exact (hins x _).trans (List.Perm.cons x ih)

theorem collectMap_eq (l : List (α × Nat)) (h : (l.map (·.1)).Nodup) : Objective.collectMap l = l := by
  have : ∀ (l m : List (α × Nat)), ((m ++ l).map (·.1)).Nodup →
      l.foldl (fun m p => HMap.insert m p.1 p.2) m = m ++ l := by
    intro l
    induction l with
    | nil => intro m _; simp
    | cons x l ih =>
      intro m hm
      rw [List.foldl_cons]
      have hx : x.1 ∉ m.map (·.1) := by
        simp only [List.map_append, List.map_cons] at hm
        rw [List.nodup_append] at hm
        intro hx
        exact hm.2.2 _ hx _ (List.mem_cons_self ..) rfl
      have e : HMap.insert m x.1 x.2 = m ++ [x] := by
        rw [HMap.insert, HMap.remove_of_not_mem hx]
      rw [e, ih]
      · simp
      · simpa using hm
  simpa [Objective.collectMap] using this l [] (by simpa using h)

end

namespace Objective

theorem value_weighted (a : Asg) (off : Int) (sl : List (Lit × Nat)) (sc : List (Clause × Nat)) :
    (Objective.weighted off sl sc).value a =
      off + msum (fun l => l.holds a) sl + msum (Clause.falsified a) sc := by
  simp only [value, wsum_eq_msum, clsCost_eq_msum]

theorem value_unweighted (a : Asg) (off : Int) (u : Option Nat) (sl : List Lit) (sc : List Clause) :
    (Objective.unweighted off u sl sc).value a =
      off + (u.getD 0 * (sl.countP (fun l => l.holds a) + sc.countP (Clause.falsified a)) : Nat) := by
  simp only [value, countTrue_eq_countP, countFalsified_eq_countP]
  simp

theorem toWeighted_spec (o : Objective) (h : o.WF) :
    ∃ off sl sc, o.toWeighted = .weighted off sl sc ∧ (Objective.weighted off sl sc).WF ∧
      ∀ a, (Objective.weighted off sl sc).value a = o.value a := by
  cases o with
  | weighted off sl sc => exact ⟨off, sl, sc, rfl, h, fun a => rfl⟩
  | unweighted off u sl sc =>
    cases u with
    | none =>
      obtain ⟨rfl, rfl⟩ := h.1 rfl
      exact ⟨off, [], [], rfl, by simp [WF], fun a => by simp [value, wsum, clsCost]⟩
    | some u =>
      refine ⟨off, _, _, rfl, ⟨(foldl_addTo (fun _ => true) u sl [] (by simp)).1,
        (foldl_addTo (fun _ => true) u sc [] (by simp)).1, ?_⟩, fun a => ?_⟩
      · intro p hp
        rcases mem_foldl_addTo hp with ⟨r, hr, _⟩ | hp
        · cases hr
        · exact h.2 _ hp
      · rw [value_weighted, value_unweighted, (foldl_addTo _ u sl [] (by simp)).2,
          (foldl_addTo _ u sc [] (by simp)).2]
        simp only [msum_nil, Nat.zero_add, Option.getD_some, Nat.mul_add]
        omega

theorem toUnweighted_spec (o : Objective) (h : o.WF) :
    ∃ off u sl sc, o.toUnweighted = .unweighted off u sl sc ∧ (Objective.unweighted off u sl sc).WF ∧
      ∀ a, (Objective.unweighted off u sl sc).value a = o.value a := by
  cases o with
  | unweighted off u sl sc => exact ⟨off, u, sl, sc, rfl, h, fun a => rfl⟩
  | weighted off sl sc =>
    refine ⟨off, some 1, _, _, rfl, ⟨by simp, ?_⟩, fun a => ?_⟩
    · intro c hc
      rcases mem_foldl_replicate hc with h' | ⟨q, hq, rfl⟩
      · cases h'
      · exact h.2.2 q hq
    · rw [value_weighted, value_unweighted, foldl_replicate, foldl_replicate]
      simp; omega

theorem increaseOffset_spec (o : Objective) (h : o.WF) (i : Int) :
    (o.increaseOffset i).WF ∧ ∀ a, (o.increaseOffset i).value a = o.value a + i := by
  cases o with
  | weighted off sl sc => exact ⟨h, fun a => by simp only [increaseOffset, value]; omega⟩
  | unweighted off u sl sc => exact ⟨h, fun a => by simp only [increaseOffset, value]; omega⟩

theorem increaseSoftLit_spec (o : Objective) (h : o.WF) (w : Nat) (l : Lit) :
    (o.increaseSoftLit w l).WF ∧
    ∀ a, (o.increaseSoftLit w l).value a = o.value a + if l.holds a then w else 0 := by
  unfold increaseSoftLit
  by_cases hw : w = 0
  · rw [if_pos hw]; subst hw; exact ⟨h, fun a => by simp⟩
  · rw [if_neg hw]
    cases o with
    | weighted off sl sc =>
      refine ⟨⟨HMap.nodup_addTo h.1 l w, h.2⟩, fun a => ?_⟩
      rw [value_weighted, value_weighted, HMap.msum_addTo _ h.1]
      split <;> omega
    | unweighted off u sl sc =>
      cases u with
      | none =>
        obtain ⟨rfl, rfl⟩ := h.1 rfl
        refine ⟨⟨by simp, by simp⟩, fun a => ?_⟩
        rw [value_unweighted, value_unweighted]
        simp [List.countP_cons]
        split <;> simp
      | some u =>
        simp only
        by_cases hu : w = u
        · subst hu
          rw [if_pos rfl]
          refine ⟨⟨by simp, h.2⟩, fun a => ?_⟩
          rw [value_unweighted, value_unweighted]
          simp only [List.countP_append, List.countP_cons, List.countP_nil, Option.getD_some, Nat.mul_add]
          split <;> simp <;> omega
        · rw [if_neg hu]
          obtain ⟨off', sl', sc', e, hwf, hv⟩ := toWeighted_spec _ h
          rw [e]
          refine ⟨⟨HMap.nodup_addTo hwf.1 l w, hwf.2⟩, fun a => ?_⟩
          rw [← hv, value_weighted, value_weighted, HMap.msum_addTo _ hwf.1]
          split <;> omega

theorem increaseSoftLitInt_spec (o : Objective) (h : o.WF) (w : Int) (l : Lit) :
    (o.increaseSoftLitInt w l).WF ∧
    ∀ a, (o.increaseSoftLitInt w l).value a = o.value a + if l.holds a then w else 0 := by
  unfold increaseSoftLitInt
  by_cases hw : w < 0
  · rw [if_pos hw]
    obtain ⟨h1, h2⟩ := increaseOffset_spec o h w
    obtain ⟨h3, h4⟩ := increaseSoftLit_spec _ h1 w.natAbs l.neg
    refine ⟨h3, fun a => ?_⟩
    rw [h4, h2, Lit.holds_neg]
    cases l.holds a <;> simp <;> omega
  · rw [if_neg hw]
    obtain ⟨h3, h4⟩ := increaseSoftLit_spec o h w.natAbs l
    refine ⟨h3, fun a => ?_⟩
    rw [h4]
    cases l.holds a <;> simp <;> omega

theorem increaseSoftClause_spec (o : Objective) (h : o.WF) (w : Nat) (c : Clause) :
    (o.increaseSoftClause w c).WF ∧
    ∀ a, (o.increaseSoftClause w c).value a = o.value a + if Clause.falsified a c then w else 0 := by
  by_cases hw : w = 0
  · subst hw; simp only [increaseSoftClause, if_pos]; exact ⟨h, fun a => by simp⟩
  by_cases hl : ∃ l, c = [l]
  · obtain ⟨l, rfl⟩ := hl
    simp only [increaseSoftClause, if_neg hw]
    obtain ⟨h1, h2⟩ := increaseSoftLit_spec o h w l.neg
    exact ⟨h1, fun a => by rw [h2, Lit.holds_neg, Clause.falsified_singleton]⟩
  · have hlen : c.length ≠ 1 := fun e => hl (List.length_eq_one_iff.1 e)
    have e : o.increaseSoftClause w c = (match (generalizing := false) o with
        | .weighted off sl sc => .weighted off sl (HMap.addTo sc c w)
        | .unweighted off (some u) sl sc =>
          if w = u then .unweighted off (some u) sl (sc ++ [c])
          else
            match toWeighted (.unweighted off (some u) sl sc) with
            | .weighted off sl sc => .weighted off sl (HMap.addTo sc c w)
            | .unweighted off u sl sc => .unweighted off u sl sc
        | .unweighted off none sl sc => .unweighted off (some w) sl (sc ++ [c])) := by
      unfold increaseSoftClause
      rw [if_neg hw]
      match c, hlen with
      | [], _ => rfl
      | _ :: _ :: _, _ => rfl
    rw [e]
    have hadd : ∀ off sl sc, (Objective.weighted off sl sc).WF →
        (Objective.weighted off sl (HMap.addTo sc c w)).WF ∧
        ∀ a, (Objective.weighted off sl (HMap.addTo sc c w)).value a =
          (Objective.weighted off sl sc).value a + if Clause.falsified a c then w else 0 := by
      intro off sl sc h
      refine ⟨⟨h.1, HMap.nodup_addTo h.2.1 c w, ?_⟩, fun a => ?_⟩
      · intro p hp
        rcases HMap.mem_insert.1 hp with ⟨hp, _⟩ | rfl
        · exact h.2.2 p hp
        · exact hlen
      · rw [value_weighted, value_weighted, HMap.msum_addTo _ h.2.1]
        split <;> omega
    cases o with
    | weighted off sl sc => exact hadd off sl sc h
    | unweighted off u sl sc =>
      cases u with
      | none =>
        obtain ⟨rfl, rfl⟩ := h.1 rfl
        refine ⟨⟨by simp, by simpa using hlen⟩, fun a => ?_⟩
        rw [value_unweighted, value_unweighted]
        simp [List.countP_cons]
        split <;> simp
      | some u =>
        simp only
        by_cases hu : w = u
        · subst hu
          rw [if_pos rfl]
          refine ⟨⟨by simp, ?_⟩, fun a => ?_⟩
          · intro d hd
            rcases List.mem_append.1 hd with hd | hd
            · exact h.2 d hd
            · simp at hd; rw [hd]; exact hlen
          · rw [value_unweighted, value_unweighted]
            simp only [List.countP_append, List.countP_cons, List.countP_nil, Option.getD_some, Nat.mul_add]
            split <;> simp <;> omega
        · rw [if_neg hu]
          obtain ⟨off', sl', sc', e, hwf, hv⟩ := toWeighted_spec _ h
          rw [e]
          obtain ⟨h1, h2⟩ := hadd off' sl' sc' hwf
          exact ⟨h1, fun a => by rw [← hv]; exact h2 a⟩

end Objective
end RustSat
