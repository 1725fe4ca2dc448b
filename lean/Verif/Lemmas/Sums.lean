import Verif.Spec.Sem
import Verif.Lemmas.Lit
/-
Lemmas about counting and weighted sums.
-/
namespace RustSat

@[simp] theorem countTrue_nil (a : Asg) : countTrue a [] = 0 := rfl
@[simp] theorem countTrue_cons (a : Asg) (l : Lit) (ls : List Lit) :
    countTrue a (l :: ls) = (if l.holds a then 1 else 0) + countTrue a ls := rfl
@[simp] theorem wsum_nil (a : Asg) : wsum a [] = 0 := rfl
@[simp] theorem wsum_cons (a : Asg) (p : Lit × Nat) (ls : List (Lit × Nat)) :
    wsum a (p :: ls) = (if p.1.holds a then p.2 else 0) + wsum a ls := rfl
@[simp] theorem isum_nil (a : Asg) : isum a [] = 0 := rfl
@[simp] theorem isum_cons (a : Asg) (p : Lit × Int) (ls : List (Lit × Int)) :
    isum a (p :: ls) = (if p.1.holds a then p.2 else 0) + isum a ls := rfl
@[simp] theorem wtotal_nil : wtotal [] = 0 := rfl
@[simp] theorem wtotal_cons (p : Lit × Nat) (ls : List (Lit × Nat)) :
    wtotal (p :: ls) = p.2 + wtotal ls := rfl

@[simp] theorem countTrue_append (a : Asg) (x y : List Lit) :
    countTrue a (x ++ y) = countTrue a x + countTrue a y := by
  induction x with
  | nil => simp
  | cons l ls ih => simp [ih]; omega

@[simp] theorem wsum_append (a : Asg) (x y : List (Lit × Nat)) :
    wsum a (x ++ y) = wsum a x + wsum a y := by
  induction x with
  | nil => simp
  | cons l ls ih => simp [ih]; omega

@[simp] theorem isum_append (a : Asg) (x y : List (Lit × Int)) :
    isum a (x ++ y) = isum a x + isum a y := by
  induction x with
  | nil => simp
  | cons l ls ih => simp [ih]; omega

@[simp] theorem wtotal_append (x y : List (Lit × Nat)) :
    wtotal (x ++ y) = wtotal x + wtotal y := by
  induction x with
  | nil => simp
  | cons l ls ih => simp [ih]; omega

theorem countTrue_perm (a : Asg) {x y : List Lit} (h : x.Perm y) : countTrue a x = countTrue a y := by
  induction h with
  | nil => rfl
  | cons _ _ ih => simp [ih]
  | swap => simp; omega
  | trans _ _ h1 h2 => omega

theorem wsum_perm (a : Asg) {x y : List (Lit × Nat)} (h : x.Perm y) : wsum a x = wsum a y := by
  induction h with
  | nil => rfl
  | cons _ _ ih => simp [ih]
  | swap => simp; omega
  | trans _ _ h1 h2 => omega

theorem wtotal_perm {x y : List (Lit × Nat)} (h : x.Perm y) : wtotal x = wtotal y := by
  induction h with
  | nil => rfl
  | cons _ _ ih => simp [ih]
  | swap => simp; omega
  | trans _ _ h1 h2 => omega

theorem countTrue_le_length (a : Asg) (x : List Lit) : countTrue a x ≤ x.length := by
  induction x with
  | nil => simp
  | cons l ls ih => simp; split <;> omega

theorem countTrue_eq_length_iff (a : Asg) (x : List Lit) :
    countTrue a x = x.length ↔ ∀ l ∈ x, l.holds a = true := by
  induction x with
  | nil => simp
  | cons l ls ih =>
    have := countTrue_le_length a ls
    simp only [countTrue_cons, List.length_cons, List.mem_cons, forall_eq_or_imp, ← ih]
    cases l.holds a <;> simp <;> omega

theorem countTrue_eq_zero_iff (a : Asg) (x : List Lit) :
    countTrue a x = 0 ↔ ∀ l ∈ x, l.holds a = false := by
  induction x with
  | nil => simp
  | cons l ls ih =>
    simp only [countTrue_cons, List.mem_cons, forall_eq_or_imp, ← ih]
    cases l.holds a <;> simp

theorem countTrue_pos_iff (a : Asg) (x : List Lit) :
    1 ≤ countTrue a x ↔ ∃ l ∈ x, l.holds a = true := by
  induction x with
  | nil => simp
  | cons l ls ih =>
    simp only [countTrue_cons, List.mem_cons, exists_eq_or_imp, ← ih]
    cases l.holds a <;> simp <;> omega

theorem countTrue_map_neg (a : Asg) (x : List Lit) :
    countTrue a (x.map Lit.neg) + countTrue a x = x.length := by
  induction x with
  | nil => simp
  | cons l ls ih =>
    simp only [List.map_cons, countTrue_cons, List.length_cons, Lit.holds_neg]
    cases l.holds a <;> simp <;> omega

theorem wsum_le_wtotal (a : Asg) (x : List (Lit × Nat)) : wsum a x ≤ wtotal x := by
  induction x with
  | nil => simp
  | cons l ls ih => simp; split <;> omega

theorem wsum_map_neg (a : Asg) (x : List (Lit × Nat)) :
    wsum a (x.map fun p => (p.1.neg, p.2)) + wsum a x = wtotal x := by
  induction x with
  | nil => simp
  | cons l ls ih =>
    simp only [List.map_cons, wsum_cons, wtotal_cons, Lit.holds_neg]
    cases l.1.holds a <;> simp <;> omega

@[simp] theorem wtotal_map_neg (x : List (Lit × Nat)) :
    wtotal (x.map fun p => (p.1.neg, p.2)) = wtotal x := by
  induction x with
  | nil => simp
  | cons l ls ih => simp [ih]

theorem wsum_eq_of_holds {a b : Asg} {x : List (Lit × Nat)}
    (h : ∀ p ∈ x, p.1.holds a = p.1.holds b) : wsum a x = wsum b x := by
  induction x with
  | nil => rfl
  | cons p ps ih =>
    simp only [wsum_cons, h p (by simp)]
    rw [ih fun q hq => h q (by simp [hq])]

theorem countTrue_eq_of_holds {a b : Asg} {x : List Lit}
    (h : ∀ l ∈ x, l.holds a = l.holds b) : countTrue a x = countTrue b x := by
  induction x with
  | nil => rfl
  | cons p ps ih =>
    simp only [countTrue_cons, h p (by simp)]
    rw [ih fun q hq => h q (by simp [hq])]

theorem wsum_mem_le (a : Asg) {x : List (Lit × Nat)} {p : Lit × Nat} (hp : p ∈ x)
    (h : p.1.holds a = true) : p.2 ≤ wsum a x := by
  induction x with
  | nil => simp at hp
  | cons q qs ih =>
    rw [wsum_cons]
    rcases List.mem_cons.1 hp with rfl | hq
    · simp [h]
    · have := ih hq; omega

theorem wsum_add_le_wtotal (a : Asg) {x : List (Lit × Nat)} {p : Lit × Nat} (hp : p ∈ x)
    (h : p.1.holds a = false) : wsum a x + p.2 ≤ wtotal x := by
  induction x with
  | nil => simp at hp
  | cons q qs ih =>
    rw [wsum_cons, wtotal_cons]
    rcases List.mem_cons.1 hp with rfl | hq
    · have := wsum_le_wtotal a qs; simp [h]; omega
    · have := ih hq; split <;> omega

theorem wsum_eq_wtotal_of_all (a : Asg) {x : List (Lit × Nat)}
    (h : ∀ p ∈ x, p.1.holds a = true) : wsum a x = wtotal x := by
  induction x with
  | nil => rfl
  | cons q qs ih => simp [h q (by simp), ih fun p hp => h p (by simp [hp])]

theorem wsum_eq_zero_of_none (a : Asg) {x : List (Lit × Nat)}
    (h : ∀ p ∈ x, p.1.holds a = false) : wsum a x = 0 := by
  induction x with
  | nil => rfl
  | cons q qs ih => simp [h q (by simp), ih fun p hp => h p (by simp [hp])]

theorem countTrue_replicate (a : Asg) (n : Nat) (l : Lit) :
    countTrue a (List.replicate n l) = if l.holds a then n else 0 := by
  induction n with
  | zero => simp
  | succ n ih => rw [List.replicate_succ, countTrue_cons, ih]; split <;> omega

/-- All weights equal `w`: the weighted sum is `w` times the count. -/
theorem wsum_const (a : Asg) (w : Nat) {x : List (Lit × Nat)} (h : ∀ p ∈ x, p.2 = w) :
    wsum a x = w * countTrue a (x.map (·.1)) := by
  induction x with
  | nil => simp
  | cons q qs ih =>
    simp only [wsum_cons, List.map_cons, countTrue_cons, h q (by simp), ih fun p hp => h p (by simp [hp])]
    cases q.1.holds a <;> simp [Nat.mul_add]

theorem wsum_map_one (a : Asg) (x : List Lit) : wsum a (x.map fun l => (l, 1)) = countTrue a x := by
  induction x with
  | nil => rfl
  | cons l ls ih => simp [ih]

theorem wtotal_map_one (x : List Lit) : wtotal (x.map fun l => (l, 1)) = x.length := by
  induction x with
  | nil => rfl
  | cons l ls ih => simp [ih]; omega

theorem isum_map_one (a : Asg) (x : List Lit) :
    isum a (x.map fun l => (l, (1 : Int))) = (countTrue a x : Int) := by
  induction x with
  | nil => rfl
  | cons l ls ih => simp [ih]; cases l.holds a <;> simp

@[simp] theorem Clause.sat_nil (a : Asg) : ¬ Clause.sat a [] := by simp [Clause.sat]
@[simp] theorem Clause.sat_cons (a : Asg) (l : Lit) (c : List Lit) :
    Clause.sat a (l :: c) ↔ l.holds a = true ∨ Clause.sat a c := by simp [Clause.sat]
@[simp] theorem Clause.sat_append (a : Asg) (c d : List Lit) :
    Clause.sat a (c ++ d) ↔ Clause.sat a c ∨ Clause.sat a d := by
  simp [Clause.sat, or_and_right, exists_or]
@[simp] theorem ClauseSet.sat_nil (a : Asg) : ClauseSet.sat a [] := by simp [ClauseSet.sat]
@[simp] theorem ClauseSet.sat_cons (a : Asg) (c : Clause) (f : List Clause) :
    ClauseSet.sat a (c :: f) ↔ Clause.sat a c ∧ ClauseSet.sat a f := by simp [ClauseSet.sat]
@[simp] theorem ClauseSet.sat_append (a : Asg) (f g : List Clause) :
    ClauseSet.sat a (f ++ g) ↔ ClauseSet.sat a f ∧ ClauseSet.sat a g := by
  simp [ClauseSet.sat, or_imp, forall_and]

theorem Clause.sat_iff_countTrue (a : Asg) (c : List Lit) : Clause.sat a c ↔ 1 ≤ countTrue a c :=
  (countTrue_pos_iff a c).symm

end RustSat
