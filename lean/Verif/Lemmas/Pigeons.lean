import Verif.Lemmas.CertOps
import Verif.Spec.Pigeons
/-
The constraints in the database of the checker are canonical; sequences of operations evaluate to the meant constraint.
-/
namespace RustSat
open VeriPb Pigeons
namespace VeriPb

/-- In increasing order, without zero coefficients. -/
def Canon (ts : List (Nat × Int)) : Prop := Sorted ts ∧ ∀ t ∈ ts, t.2 ≠ 0

theorem nz_addTerm {v : Nat} {a : Int} : ∀ {ts : List (Nat × Int)}, (∀ t ∈ ts, t.2 ≠ 0) → ∀ t ∈ addTerm v a ts, t.2 ≠ 0 := by
  intro ts
  induction ts with
  | nil =>
    intro _ t ht
    unfold addTerm at ht
    by_cases ha : a = 0
    · rw [if_pos ha] at ht; cases ht
    · rw [if_neg ha] at ht
      rw [List.mem_singleton.1 ht]
      exact ha
  | cons x ts ih =>
    obtain ⟨w, c⟩ := x
    intro h t ht
    have hc : c ≠ 0 := h (w, c) List.mem_cons_self
    have htl : ∀ t ∈ ts, t.2 ≠ 0 := fun t ht => h t (List.mem_cons_of_mem _ ht)
    unfold addTerm at ht
    by_cases h1 : v < w
    · rw [if_pos h1] at ht
      by_cases ha : a = 0
      · rw [if_pos ha] at ht; exact h t ht
      · rw [if_neg ha] at ht
        rcases List.mem_cons.1 ht with rfl | ht
        · exact ha
        · exact h t ht
    · rw [if_neg h1] at ht
      by_cases h2 : v = w
      · rw [if_pos h2] at ht
        by_cases ha : a + c = 0
        · rw [if_pos ha] at ht; exact htl t ht
        · rw [if_neg ha] at ht
          rcases List.mem_cons.1 ht with rfl | ht
          · exact ha
          · exact htl t ht
      · rw [if_neg h2] at ht
        rcases List.mem_cons.1 ht with rfl | ht
        · exact hc
        · exact ih htl t ht

theorem Canon.addTerm {v : Nat} {a : Int} {ts : List (Nat × Int)} (h : Canon ts) : Canon (addTerm v a ts) :=
  ⟨sorted_addTerm h.1, nz_addTerm h.2⟩

theorem Canon.addTerms {ts : List (Nat × Int)} (h : Canon ts) : ∀ us, Canon (addTerms ts us) := by
  intro us
  induction us with
  | nil => exact h
  | cons x us ih => exact ih.addTerm

theorem Canon.map {f : Int → Int} (hf : ∀ a, a ≠ 0 → f a ≠ 0) {ts : List (Nat × Int)} (h : Canon ts) :
    Canon (ts.map fun t => (t.1, f t.2)) := by
  refine ⟨sorted_map h.1, fun t ht => ?_⟩
  obtain ⟨u, hu, rfl⟩ := List.mem_map.1 ht
  exact hf _ (h.2 u hu)

theorem canon_axiom (l : Lit) : Canon (Ineq.axiom l).terms := by
  refine ⟨sorted_axiom l, fun t ht => ?_⟩
  unfold Ineq.axiom at ht
  by_cases hl : l.isNeg = true
  · rw [if_pos hl] at ht
    rw [List.mem_singleton.1 ht]
    simp
  · rw [if_neg hl] at ht
    rw [List.mem_singleton.1 ht]
    simp

theorem Canon.mul {d : Ineq} (h : Canon d.terms) (k : Nat) : Canon (d.mul k).terms := by
  unfold Ineq.mul
  by_cases hk : (k : Int) = 0
  · rw [if_pos hk]; exact ⟨List.Pairwise.nil, fun t ht => nomatch ht⟩
  · rw [if_neg hk]
    exact h.map (f := fun a => (k : Int) * a) fun a ha hh => (Int.mul_eq_zero.1 hh).elim hk ha

theorem Canon.div {d : Ineq} (h : Canon d.terms) {k : Nat} (hk : 0 < k) : Canon (d.div k).terms := by
  refine h.map (f := fun a => if a < 0 then a / (k : Int) else -((-a) / (k : Int))) fun a ha hh => ?_
  have hk' : (0 : Int) < k := by exact_mod_cast hk
  by_cases hn : a < 0
  · simp only [hn, if_true] at hh
    have := Int.ediv_neg_of_neg_of_pos hn hk'
    omega
  · simp only [hn, if_false] at hh
    have := Int.ediv_neg_of_neg_of_pos (a := -a) (by omega) hk'
    omega

theorem Canon.saturate {d : Ineq} (h : Canon d.terms) : Canon d.saturate.terms := by
  unfold Ineq.saturate
  by_cases hn : d.norm ≤ 0
  · rw [if_pos hn]; exact ⟨List.Pairwise.nil, fun t ht => nomatch ht⟩
  · rw [if_neg hn]
    refine h.map (f := fun a => max (-d.norm) (min d.norm a)) fun a ha hh => ?_
    omega

theorem Canon.weaken {d : Ineq} (h : Canon d.terms) (v : Nat) : Canon (d.weaken v).terms :=
  ⟨sorted_weaken h.1 v, fun t ht => h.2 t (List.mem_filter.1 ht).1⟩

theorem canon_ofConstr (c : Constr) : Canon (ofConstr c).terms := by
  refine ⟨sorted_ofConstr c, ?_⟩
  unfold ofConstr
  induction c.sum with
  | nil => intro t ht; cases ht
  | cons x ts ih =>
    rw [List.foldr_cons]
    by_cases hx : x.2.isNeg = true
    · rw [if_pos hx]; exact nz_addTerm ih
    · rw [if_neg hx]; exact nz_addTerm ih

/-- All constraints of the checker are canonical. -/
def State.Canon (s : State) : Prop := ∀ d ∈ s.constrs, VeriPb.Canon d.terms

theorem canon_push {s : State} {d : Ineq} (h1 : VeriPb.Canon d.terms) (h2 : s.Canon) : (s.push d).Canon := by
  intro e he
  rcases mem_push.1 he with rfl | he
  · exact h1
  · exact h2 e he

theorem step_canon {s s' : State} (hs : s.Canon) {l : Line} (h : step s l = some s') : s'.Canon := by
  cases l with
  | pol ops =>
    unfold step at h
    simp only at h
    cases he : evalOps s ops [] with
    | none => rw [he] at h; cases h
    | some st =>
      rw [he] at h
      match st, h, he with
      | [], h, _ => cases h
      | _ :: _ :: _, h, _ => cases h
      | [d], h, he =>
        injection h with h
        subst h
        refine canon_push ?_ hs
        exact evalOps_inv (P := fun d : Ineq => VeriPb.Canon d.terms) hs (fun _ _ h _ => h.addTerms _) (fun _ k h => h.mul k)
          (fun _ k hk h => h.div hk) (fun _ h => h.saturate) (fun _ v h => h.weaken v) ops (fun l _ => canon_axiom l) he
          (fun d hd => nomatch hd) d (by simp)
  | rup c hints =>
    unfold step at h
    simp only at h
    by_cases hr : rupOk s (ofConstr c) hints = true
    · rw [if_pos hr] at h
      injection h with h
      subst h
      exact canon_push (canon_ofConstr c) hs
    · rw [if_neg hr] at h; cases h
  | red c w =>
    unfold step at h
    simp only at h
    by_cases hr : redOk s (ofConstr c) w = true
    · rw [if_pos hr] at h
      injection h with h
      subst h
      exact canon_push (canon_ofConstr c) hs
    · rw [if_neg hr] at h; cases h
  | del ids =>
    unfold step at h
    simp only at h
    by_cases hr : (ids.all fun id => (s.get id).isSome) = true
    · rw [if_pos hr] at h
      injection h with h
      subst h
      intro D hD
      obtain ⟨x, hx, rfl⟩ := List.mem_map.1 hD
      exact hs _ (List.mem_map.2 ⟨x, (List.mem_filter.1 hx).1, rfl⟩)
    · rw [if_neg hr] at h; cases h

theorem run_canon : ∀ (ls : List Line) {s s' : State}, s.Canon → run s ls = some s' → s'.Canon := by
  intro ls
  induction ls with
  | nil => intro s s' hs h; injection h with h; rw [← h]; exact hs
  | cons l ls ih =>
    intro s s' hs h
    rw [run] at h
    cases hl : step s l with
    | none => rw [hl] at h; cases h
    | some t => rw [hl] at h; exact ih (step_canon hs hl) h

theorem start_constrs {f : List Constr} {D : Ineq} (hD : D ∈ (start f).constrs) : ∃ c ∈ f, D = ofConstr c := by
  obtain ⟨x, hx, rfl⟩ := List.mem_map.1 hD
  obtain ⟨y, hy, rfl⟩ := List.mem_map.1 hx
  obtain ⟨c, i⟩ := y
  have := List.mem_zipIdx hy
  refine ⟨c, ?_, rfl⟩
  rw [this.2.2]
  exact List.getElem_mem _

theorem start_canon (f : List Constr) : (start f).Canon := by
  intro D hD
  obtain ⟨c, -, rfl⟩ := start_constrs hD
  exact canon_ofConstr c

theorem start_ok (f : List Constr) : (start f).Ok := fun D hD => (start_canon f D hD).1

theorem csum_eq (b : Asg) : ∀ ts : List (Int × Lit), csum b ts = (ts.map fun t => if t.2.holds b then t.1 else 0).sum := by
  intro ts
  induction ts with
  | nil => rfl
  | cons t ts ih =>
    obtain ⟨a, l⟩ := t
    simp only [csum, List.map_cons, List.sum_cons, ih, lbit]
    cases l.holds b <;> simp

theorem sat_ofConstr (c : Constr) (b : Asg) : (ofConstr c).sat b ↔ c.sat b := by
  unfold Ineq.sat Constr.sat
  rw [slack_ofConstr, csum_eq]
  omega

theorem start_sat {f : List Constr} {b : Asg} (h : ∀ c ∈ f, c.sat b) : (start f).sat b := by
  intro D hD
  obtain ⟨c, hc, rfl⟩ := start_constrs hD
  exact (sat_ofConstr c b).2 (h c hc)

theorem witnessVars_eq : ∀ ls : List Line, witnessVars ls = ls.flatMap Line.substituted := by
  intro ls
  induction ls with
  | nil => rfl
  | cons l ls ih => cases l <;> simp [witnessVars, Line.substituted, ih]

theorem addTerms_nil {ts : List (Nat × Int)} (h : Canon ts) : addTerms [] ts = ts := by
  obtain ⟨h1, h2⟩ := h
  induction ts with
  | nil => rfl
  | cons x ts ih =>
    obtain ⟨v, a⟩ := x
    unfold Sorted at h1
    rw [List.pairwise_cons] at h1
    rw [addTerms, ih h1.2 fun t ht => h2 t (List.mem_cons_of_mem _ ht)]
    have ha : a ≠ 0 := h2 (v, a) List.mem_cons_self
    cases ts with
    | nil => rw [addTerm, if_neg ha]
    | cons y ts =>
      obtain ⟨w, c⟩ := y
      have : v < w := h1.1 (w, c) List.mem_cons_self
      rw [addTerm, if_pos this, if_neg ha]

theorem trivial_add {d : Ineq} (h : Canon d.terms) : Ineq.trivial.add d = d := by
  obtain ⟨ts, g⟩ := d
  have h' : addTerms [] ts = ts := addTerms_nil h
  simp only [Ineq.add, Ineq.trivial, h', Int.zero_add]

theorem add_trivial (d : Ineq) : d.add Ineq.trivial = d := by
  obtain ⟨ts, g⟩ := d
  simp only [Ineq.add, Ineq.trivial, addTerms, Int.add_zero]

theorem mul_one (d : Ineq) : d.mul 1 = d := by
  obtain ⟨ts, g⟩ := d
  simp [Ineq.mul]

theorem mul_zero (d : Ineq) : d.mul (0 : Nat) = Ineq.trivial := rfl

theorem trivial_mul (k : Nat) : Ineq.trivial.mul k = Ineq.trivial := by
  unfold Ineq.mul Ineq.trivial
  by_cases hk : (k : Int) = 0
  · rw [if_pos hk]
  · rw [if_neg hk]; simp

theorem trivial_div (k : Nat) : Ineq.trivial.div k = Ineq.trivial := by
  simp [Ineq.div, Ineq.trivial, Ineq.norm, negSum]

theorem trivial_saturate : Ineq.trivial.saturate = Ineq.trivial := rfl

/-- Sequences of operations evaluate to the meant constraint. -/
theorem expr_eval {s : State} (hs : s.Canon) : ∀ (e : Expr) {d : Ineq}, e.value s = some d → Canon d.terms ∧
    ((e.ops = [] ∧ d = .trivial) ∨ (e.ops ≠ [] ∧ ∀ st, evalOps s e.ops st = some (d :: st))) := by
  intro e
  induction e with
  | empty => intro d h; injection h with h; subst h; exact ⟨⟨List.Pairwise.nil, fun t ht => nomatch ht⟩, Or.inl ⟨rfl, rfl⟩⟩
  | con id =>
    intro d h
    have h' : s.get id = some d := h
    refine ⟨hs d (State.get_mem h'), Or.inr ⟨by simp [Expr.ops], fun st => ?_⟩⟩
    simp [Expr.ops, evalOps, evalOp, h']
  | ax l =>
    intro d h
    injection h with h
    subst h
    exact ⟨canon_axiom l, Or.inr ⟨by simp [Expr.ops], fun st => rfl⟩⟩
  | add e f ihe ihf =>
    intro d h
    unfold Expr.value at h
    cases he : e.value s with
    | none => rw [he] at h; cases h
    | some c =>
      cases hf : f.value s with
      | none => rw [he, hf] at h; cases h
      | some g =>
        rw [he, hf] at h
        injection h with h
        subst h
        obtain ⟨c1, h1⟩ := ihe he
        obtain ⟨c2, h2⟩ := ihf hf
        refine ⟨c1.addTerms _, ?_⟩
        simp only [Expr.ops, Ops.add]
        rcases h1 with ⟨h1, rfl⟩ | ⟨h1, h3⟩
        · rw [if_pos h1, trivial_add c2]
          exact h2
        · rw [if_neg h1]
          rcases h2 with ⟨h2, rfl⟩ | ⟨h2, h4⟩
          · rw [if_pos h2, add_trivial]
            exact Or.inr ⟨h1, h3⟩
          · rw [if_neg h2]
            refine Or.inr ⟨by simp, fun st => ?_⟩
            rw [evalOps_append, evalOps_append, h3]
            simp only [Option.bind_some]
            rw [h4]
            rfl
  | mul e k ih =>
    intro d h
    unfold Expr.value at h
    cases he : e.value s with
    | none => rw [he] at h; cases h
    | some c =>
      rw [he] at h
      injection h with h
      subst h
      obtain ⟨c1, h1⟩ := ih he
      refine ⟨c1.mul k, ?_⟩
      simp only [Expr.ops, Ops.mul]
      by_cases hk : k = 0
      · subst hk
        exact Or.inl ⟨rfl, rfl⟩
      · rw [if_neg hk]
        rcases h1 with ⟨h1, rfl⟩ | ⟨h1, h3⟩
        · rw [if_neg (fun hh => hh.1 h1), trivial_mul]
          exact Or.inl ⟨h1, rfl⟩
        · by_cases hk1 : k > 1
          · rw [if_pos ⟨h1, hk1⟩]
            refine Or.inr ⟨by simp, fun st => ?_⟩
            rw [evalOps_append, h3]
            simp [evalOps, evalOp, hk]
          · have : k = 1 := by omega
            subst this
            rw [if_neg (fun hh => hk1 hh.2)]
            refine Or.inr ⟨h1, fun st => ?_⟩
            rw [h3, show ((1 : Nat) : Int) = 1 from rfl, mul_one]
  | div e k ih =>
    intro d h
    unfold Expr.value at h
    by_cases hk : k = 0
    · rw [if_pos hk] at h; cases h
    · rw [if_neg hk] at h
      cases he : e.value s with
      | none => rw [he] at h; cases h
      | some c =>
        rw [he] at h
        injection h with h
        subst h
        obtain ⟨c1, h1⟩ := ih he
        refine ⟨c1.div (by omega), ?_⟩
        simp only [Expr.ops, Ops.div]
        rcases h1 with ⟨h1, rfl⟩ | ⟨h1, h3⟩
        · rw [if_neg (fun hh => hh h1), trivial_div]
          exact Or.inl ⟨h1, rfl⟩
        · rw [if_pos h1]
          refine Or.inr ⟨by simp, fun st => ?_⟩
          rw [evalOps_append, h3]
          simp [evalOps, evalOp, hk]
  | saturate e ih =>
    intro d h
    unfold Expr.value at h
    cases he : e.value s with
    | none => rw [he] at h; cases h
    | some c =>
      rw [he] at h
      injection h with h
      subst h
      obtain ⟨c1, h1⟩ := ih he
      refine ⟨c1.saturate, ?_⟩
      simp only [Expr.ops, Ops.saturate]
      rcases h1 with ⟨h1, rfl⟩ | ⟨h1, h3⟩
      · rw [if_neg (fun hh => hh h1), trivial_saturate]
        exact Or.inl ⟨h1, rfl⟩
      · rw [if_pos h1]
        refine Or.inr ⟨by simp, fun st => ?_⟩
        rw [evalOps_append, h3]
        rfl

theorem foldl_write (ls : List Line) : ∀ p : Proof, (ls.foldl Proof.write p).lines = p.lines ++ ls := by
  induction ls with
  | nil => intro p; simp
  | cons l ls ih =>
    intro p
    rw [List.foldl_cons, ih]
    cases l <;> simp [Proof.write, Proof.push, Proof.deleteIds]

end VeriPb
end RustSat
