import Verif.Lemmas.VeriPb
/-
What the checker does with the lines that certified encodings write.
-/
namespace RustSat
namespace VeriPb
open Pigeons

/-- The checker has not lost constraints. -/
structure Grow (s s' : State) : Prop where
  next : s.next ≤ s'.next
  keep : ∀ id, id < s.next → s'.get id = s.get id

theorem Grow.refl (s : State) : Grow s s := ⟨Nat.le_refl _, fun _ _ => rfl⟩
theorem Grow.trans {a b c : State} (h1 : Grow a b) (h2 : Grow b c) : Grow a c :=
  ⟨Nat.le_trans h1.next h2.next, fun id h => by rw [h2.keep id (Nat.lt_of_lt_of_le h h1.next), h1.keep id h]⟩

theorem get_push (s : State) (d : Ineq) : (s.push d).get s.next = some d := by
  unfold State.get State.push
  simp [List.lookup]

theorem get_push_ne (s : State) (d : Ineq) {id : Nat} (h : id ≠ s.next) : (s.push d).get id = s.get id := by
  unfold State.get State.push
  simp only [List.lookup]
  have : (id == s.next) = false := by simp [h]
  rw [this]

theorem Grow.push (s : State) (d : Ineq) : Grow s (s.push d) :=
  ⟨Nat.le_succ _, fun id h => get_push_ne s d (by omega)⟩

theorem mem_push {s : State} {d e : Ineq} : e ∈ (s.push d).constrs ↔ e = d ∨ e ∈ s.constrs := by
  unfold State.constrs State.push
  simp

theorem run_append (s : State) : ∀ (a b : List Line), run s (a ++ b) = (run s a).bind fun s => run s b := by
  intro a
  induction a generalizing s with
  | nil => intro b; rfl
  | cons l a ih =>
    intro b
    simp only [List.cons_append, run]
    cases step s l with
    | none => rfl
    | some s1 => exact ih s1 b

theorem evalOps_append (s : State) : ∀ (a b : Ops) (st : List Ineq),
    evalOps s (a ++ b) st = (evalOps s a st).bind fun st => evalOps s b st := by
  intro a
  induction a with
  | nil => intro b st; rfl
  | cons o a ih =>
    intro b st
    simp only [List.cons_append, evalOps]
    cases evalOp s st o with
    | none => rfl
    | some st1 => exact ih b st1

/-- A sequence of operations computes an inequality with a given slack. -/
def Den (s : State) (V : Nat → Prop) (ops : Ops) (f : Asg → Int) : Prop :=
  (ops = [] ∧ ∀ b, f b = 0) ∨
    (ops ≠ [] ∧ ∃ D : Ineq, Sorted D.terms ∧ (∀ v, D.Has v → V v) ∧ (∀ b, D.slack b = f b) ∧
      ∀ st, evalOps s ops st = some (D :: st))

theorem Den.congr {s : State} {V : Nat → Prop} {ops : Ops} {f g : Asg → Int} (h : Den s V ops f)
    (hfg : ∀ b, f b = g b) : Den s V ops g := by
  have : f = g := funext hfg
  rw [← this]; exact h

theorem Den.add {s : State} {V : Nat → Prop} {o p : Ops} {f g : Asg → Int} (h1 : Den s V o f) (h2 : Den s V p g) :
    Den s V (o.add p) (fun b => f b + g b) := by
  rcases h1 with ⟨rfl, h1⟩ | ⟨ho, D, a1, a2, a3, a4⟩
  · unfold Ops.add
    rw [if_pos rfl]
    exact h2.congr fun b => by rw [h1, Int.zero_add]
  · rcases h2 with ⟨rfl, h2⟩ | ⟨hp, E, b1, b2, b3, b4⟩
    · unfold Ops.add
      rw [if_neg ho, if_pos rfl]
      exact Or.inr ⟨ho, D, a1, a2, fun b => by show _ = f b + g b; rw [a3, h2, Int.add_zero], a4⟩
    · unfold Ops.add
      rw [if_neg ho, if_neg hp]
      refine Or.inr ⟨by simp, D.add E, sorted_add a1, fun v hv => ?_, fun b => by rw [slack_add, a3, b3], fun st => ?_⟩
      · rcases has_add hv with h | h
        · exact a2 v h
        · exact b2 v h
      · rw [evalOps_append, evalOps_append, a4]
        simp only [Option.bind_some]
        rw [b4]
        rfl

theorem Den.mul {s : State} {V : Nat → Prop} {o : Ops} {f : Asg → Int} (h1 : Den s V o f) (k : Nat) :
    Den s V (o.mul k) (fun b => k * f b) := by
  unfold Ops.mul
  by_cases hk : k = 0
  · rw [if_pos hk]; subst hk
    exact Or.inl ⟨rfl, fun b => by simp⟩
  · rw [if_neg hk]
    rcases h1 with ⟨rfl, h1⟩ | ⟨ho, D, a1, a2, a3, a4⟩
    · rw [if_neg (by simp)]
      exact Or.inl ⟨rfl, fun b => by show (k : Int) * f b = 0; rw [h1]; simp⟩
    · by_cases hk1 : k > 1
      · rw [if_pos ⟨ho, hk1⟩]
        refine Or.inr ⟨by simp, D.mul k, sorted_mul a1 k, fun v hv => a2 v (has_mul hv),
          fun b => by rw [slack_mul, a3], fun st => ?_⟩
        rw [evalOps_append, a4]
        simp [evalOps, evalOp, hk]
      · rw [if_neg fun h => hk1 h.2]
        have : k = 1 := by omega
        subst this
        exact Or.inr ⟨ho, D, a1, a2, fun b => by rw [a3]; simp, a4⟩

theorem Den.id {s : State} {V : Nat → Prop} {n : Nat} {D : Ineq} {f : Asg → Int} (h : s.get n = some D)
    (hs : Sorted D.terms) (hV : ∀ v, D.Has v → V v) (hf : ∀ b, D.slack b = f b) : Den s V [.id n] f :=
  Or.inr ⟨by simp, D, hs, hV, hf, fun st => by simp only [evalOps, evalOp, h]; rfl⟩

theorem Den.ax {s : State} {V : Nat → Prop} {l : Lit} {f : Asg → Int} (hV : V l.var) (hf : ∀ b, lbit b l = f b) :
    Den s V [.ax l] f :=
  Or.inr ⟨by simp, Ineq.axiom l, sorted_axiom l, fun v hv => by rw [has_axiom hv]; exact hV,
    fun b => by rw [slack_axiom, hf], fun st => rfl⟩

/-- A saturated sequence of operations is accepted, and its result is satisfied iff the slack is not negative. -/
theorem Den.pol {s : State} {V : Nat → Prop} {o : Ops} {f : Asg → Int} (h : Den s V o f) (ho : o ≠ []) :
    ∃ D : Ineq, Sorted D.terms ∧ (∀ v, D.Has v → V v) ∧ (∀ b, D.sat b ↔ 0 ≤ f b) ∧ o.saturate ≠ [] ∧
      step s (.pol o.saturate) = some (s.push D) := by
  rcases h with ⟨h, _⟩ | ⟨_, D, a1, a2, a3, a4⟩
  · exact absurd h ho
  · refine ⟨D.saturate, sorted_saturate a1, fun v hv => a2 v (has_saturate hv), fun b => ?_, ?_, ?_⟩
    · rw [sat_saturate]; unfold Ineq.sat; rw [a3]
    · unfold Ops.saturate; rw [if_pos ho]; simp
    · unfold Ops.saturate; rw [if_pos ho]
      simp only [step]
      rw [evalOps_append, a4]
      rfl

/-- A constraint that always holds is redundant. -/
theorem step_red_trivial {s : State} (hs : s.Ok) {c : Constr} (h : ∀ b, 0 ≤ (ofConstr c).slack b) :
    step s (.red c []) = some (s.push (ofConstr c)) := by
  have hok : redOk s (ofConstr c) [] = true := by
    unfold redOk
    rw [List.all_eq_true]
    intro e he
    rw [List.any_eq_true]
    rcases List.mem_cons.1 he with rfl | he
    · refine ⟨.trivial, by simp, (implies_iff (sorted_subst [] (sorted_ofConstr c))).2 fun b => ?_⟩
      rw [slack_trivial, slack_subst]
      exact h _
    · refine ⟨e, by simp [he], (implies_iff (sorted_subst [] (hs e he))).2 fun b => ?_⟩
      rw [slack_subst]
      exact Int.le_refl _
  simp only [step, hok, if_true]

/-- A constraint that holds after fixing a variable, which other constraints do not mention or which are implied by
the negated constraint after fixing it. -/
theorem step_red_fix {s : State} (hs : s.Ok) {c : Constr} {v : Nat} {x : Bool}
    (h : ∀ b, 0 ≤ (ofConstr c).slack (upd b v x))
    (ho : ∀ e ∈ s.constrs, e.Has v → ∀ b, - (ofConstr c).slack b - 1 ≤ e.slack (upd b v x)) :
    step s (.red c [(v, x)]) = some (s.push (ofConstr c)) := by
  have hok : redOk s (ofConstr c) [(v, x)] = true := by
    unfold redOk
    rw [List.all_eq_true]
    intro e he
    rw [List.any_eq_true]
    rcases List.mem_cons.1 he with rfl | he
    · refine ⟨.trivial, by simp, (implies_iff (sorted_subst _ (sorted_ofConstr c))).2 fun b => ?_⟩
      rw [slack_trivial, slack_subst]
      exact h _
    · by_cases hv : e.Has v
      · refine ⟨(ofConstr c).neg, by simp, (implies_iff (sorted_subst _ (hs e he))).2 fun b => ?_⟩
        rw [slack_subst, slack_neg]
        exact ho e he hv b
      · refine ⟨e, by simp [he], (implies_iff (sorted_subst _ (hs e he))).2 fun b => ?_⟩
        rw [slack_subst]
        have : e.slack (updAll b [(v, x)]) = e.slack b := slack_congr fun w hw => by
          show upd b v x w = b w
          unfold upd
          rw [if_neg]
          rintro rfl
          exact hv hw
        omega
  simp only [step, hok, if_true]

end VeriPb
end RustSat
