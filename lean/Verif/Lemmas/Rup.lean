import Verif.Lemmas.Pigeons
import Mathlib.Tactic.Ring
import Mathlib.Tactic.Linarith
/-
Completeness of reverse unit propagation for clauses that follow from a single constraint.
-/
namespace RustSat
namespace VeriPb
open Pigeons

/-- The extension of a partial assignment that maximizes a linear form. -/
def best (p : Partial) (ts : List (Nat × Int)) : Asg := fun v =>
  match p.lookup v with
  | some x => x
  | none => match ts.lookup v with | some a => decide (0 < a) | none => false

theorem best_extends (p : Partial) (ts : List (Nat × Int)) : Extends (best p ts) p := by
  intro v x h
  unfold best
  rw [h]

theorem lookup_pair {α : Type} (v w : Nat) (a : α) (ts : List (Nat × α)) :
    List.lookup v ((w, a) :: ts) = if v = w then some a else List.lookup v ts := by
  rw [List.lookup]
  by_cases h : v = w
  · subst h; simp
  · rw [if_neg h]
    have : (v == w) = false := by simp [h]
    rw [this]

theorem lin_best (p : Partial) : ∀ {ts : List (Nat × Int)}, Sorted ts → lin (best p ts) ts = maxLin p ts := by
  intro ts
  induction ts with
  | nil => intro _; rfl
  | cons t ts ih =>
    obtain ⟨v, a⟩ := t
    intro hs
    have hs' := List.pairwise_cons.1 hs
    have h1 : lin (best p ((v, a) :: ts)) ts = lin (best p ts) ts := by
      apply lin_congr
      intro t ht
      have hlt := hs'.1 t ht
      simp only at hlt
      unfold best
      rw [lookup_pair, if_neg (by omega)]
    have h2 : best p ((v, a) :: ts) v = match p.lookup v with | some x => x | none => decide (0 < a) := by
      unfold best
      rw [lookup_pair, if_pos rfl]
    simp only [lin, maxLin]
    rw [h1, ih hs'.2]
    congr 1
    unfold bit
    rw [h2]
    cases p.lookup v with
    | some x => cases x <;> simp
    | none =>
      simp only
      by_cases ha : 0 < a
      · rw [decide_eq_true ha]
        simp only [if_true]
        omega
      · rw [decide_eq_false ha]
        simp
        omega

theorem maxLin_assigned {p : Partial} {b : Asg} (h : Extends b p) : ∀ {ts : List (Nat × Int)},
    (∀ t ∈ ts, (p.lookup t.1).isSome) → lin b ts = maxLin p ts := by
  intro ts
  induction ts with
  | nil => intro _; rfl
  | cons t ts ih =>
    obtain ⟨v, a⟩ := t
    intro ha
    simp only [lin, maxLin]
    rw [ih fun t ht => ha t (List.mem_cons_of_mem _ ht)]
    have h0 := ha (v, a) (List.mem_cons_self ..)
    simp only at h0
    cases hx : p.lookup v with
    | none => rw [hx] at h0; cases h0
    | some x =>
      simp only
      have := h v x hx
      unfold bit
      rw [this]
      cases x <;> simp

theorem maxLin_cons (p : Partial) (u : Nat × Bool) (hu : p.lookup u.1 = none) : ∀ ts : List (Nat × Int),
    maxLin (u :: p) ts ≤ maxLin p ts := by
  intro ts
  induction ts with
  | nil => exact Int.le_refl _
  | cons t ts ih =>
    obtain ⟨v, a⟩ := t
    obtain ⟨w, x⟩ := u
    simp only [maxLin, lookup_pair]
    by_cases h : v = w
    · subst h
      rw [if_pos rfl, hu]
      simp only
      cases x <;> simp <;> omega
    · rw [if_neg h]
      omega

theorem extends_cons {b : Asg} {p : Partial} {u : Nat × Bool} (hu : p.lookup u.1 = none) (h : Extends b (u :: p)) :
    Extends b p := by
  intro v x hx
  apply h
  obtain ⟨w, y⟩ := u
  rw [lookup_pair]
  by_cases hv : v = w
  · subst hv; rw [hu] at hx; cases hx
  · rw [if_neg hv]; exact hx

/-- The number of unassigned terms. -/
def unassigned (p : Partial) (ts : List (Nat × Int)) : Nat := (ts.filter fun t => (p.lookup t.1).isNone).length

theorem unassigned_cons {p : Partial} {u : Nat × Bool} (hu : p.lookup u.1 = none) :
    ∀ {ts : List (Nat × Int)}, unassigned (u :: p) ts ≤ unassigned p ts := by
  intro ts
  unfold unassigned
  induction ts with
  | nil => exact Nat.le_refl _
  | cons t ts ih =>
    obtain ⟨v, a⟩ := t
    obtain ⟨w, x⟩ := u
    simp only [lookup_pair] at ih
    simp only [List.filter_cons, lookup_pair]
    by_cases h : v = w
    · subst h
      rw [if_pos rfl, hu]
      simp only [Option.isNone_some, Option.isNone_none, Bool.false_eq_true, if_false, if_true, List.length_cons]
      exact Nat.le_succ_of_le ih
    · rw [if_neg h]
      cases (p.lookup v).isNone with
      | true => simp only [if_true, List.length_cons]; exact Nat.succ_le_succ ih
      | false => simp only [Bool.false_eq_true, if_false]; exact ih

theorem unassigned_lt {p : Partial} {u : Nat × Bool} (hu : p.lookup u.1 = none) :
    ∀ {ts : List (Nat × Int)}, (∃ t ∈ ts, t.1 = u.1) → unassigned (u :: p) ts < unassigned p ts := by
  intro ts
  induction ts with
  | nil => rintro ⟨t, ht, -⟩; cases ht
  | cons t ts ih =>
    obtain ⟨v, a⟩ := t
    obtain ⟨w, x⟩ := u
    rintro ⟨t, ht, e⟩
    have ih0 := unassigned_cons (u := (w, x)) hu (ts := ts)
    unfold unassigned at ih ih0 ⊢
    simp only [lookup_pair] at ih ih0
    simp only [List.filter_cons, lookup_pair]
    by_cases h : v = w
    · subst h
      rw [if_pos rfl]
      simp only at hu
      rw [hu]
      simp only [Option.isNone_some, Option.isNone_none, Bool.false_eq_true, if_false, if_true, List.length_cons]
      exact Nat.lt_succ_of_le ih0
    · rw [if_neg h]
      have ih := ih (by
        rcases List.mem_cons.1 ht with rfl | ht
        · exact absurd e h
        · exact ⟨t, ht, e⟩)
      cases (p.lookup v).isNone with
      | true => simp only [if_true, List.length_cons]; exact Nat.succ_lt_succ ih
      | false => simp only [Bool.false_eq_true, if_false]; exact ih

/-- If a constraint allows no slack and cannot be satisfied together with another one, then unit propagation finds a
conflict. -/
theorem conflict_complete {N D : Ineq} (hN : Canon N.terms) (hD : Sorted D.terms) : ∀ (fuel : Nat) (p : Partial),
    N.maxSlack p ≤ 0 → unassigned p N.terms < fuel → (∀ b, Extends b p → N.sat b → ¬ D.sat b) →
    conflict [N, D] fuel p = true := by
  intro fuel
  induction fuel with
  | zero => intro p _ h; omega
  | succ fuel ih =>
    intro p hm hf hb
    unfold conflict
    by_cases hc : ([N, D].any fun d => decide (d.maxSlack p < 0)) = true
    · rw [if_pos hc]
    · rw [if_neg hc]
      simp only [List.any_cons, List.any_nil, Bool.or_false, Bool.or_eq_true, decide_eq_true_eq, not_or, Int.not_lt] at hc
      obtain ⟨hn0, hd0⟩ := hc
      cases hu : (N.units p).head? with
      | some u =>
        have hmem : u ∈ N.units p := List.mem_of_head? hu
        unfold Ineq.units at hmem
        obtain ⟨t, ht, rfl⟩ := List.mem_map.1 hmem
        obtain ⟨ht1, ht2⟩ := List.mem_filter.1 ht
        simp only [Bool.and_eq_true, decide_eq_true_eq, Option.isNone_iff_eq_none] at ht2
        have hnone : p.lookup (t.1, decide (0 < t.2)).1 = none := ht2.1
        have e : ([N, D].findSome? fun d => (d.units p).head?) = some (t.1, decide (0 < t.2)) := by
          simp only [List.findSome?_cons, hu]
        rw [e]
        simp only
        apply ih
        · have := maxLin_cons p (t.1, decide (0 < t.2)) hnone N.terms
          unfold Ineq.maxSlack at hm ⊢
          omega
        · have := unassigned_lt (u := (t.1, decide (0 < t.2))) hnone ⟨t, ht1, rfl⟩
          omega
        · exact fun b hb' => hb b (extends_cons hnone hb')
      | none =>
        exfalso
        rw [List.head?_eq_none_iff] at hu
        have hall : ∀ t ∈ N.terms, (p.lookup t.1).isSome := by
          intro t ht
          unfold Ineq.units at hu
          rw [List.map_eq_nil_iff, List.filter_eq_nil_iff] at hu
          have h1 := hu t ht
          have h2 : N.maxSlack p < t.2.natAbs := by
            have := hN.2 t ht
            omega
          cases hl : p.lookup t.1 with
          | some x => rfl
          | none =>
            rw [hl, decide_eq_true h2] at h1
            exact absurd rfl h1
        have he := best_extends p D.terms
        refine hb (best p D.terms) he ?_ ?_
        · unfold Ineq.sat Ineq.slack
          rw [maxLin_assigned he hall]
          exact hn0
        · unfold Ineq.sat Ineq.slack
          rw [lin_best p hD]
          exact hd0

theorem nz_neg {d : Ineq} (h : Canon d.terms) : Canon d.neg.terms := Canon.map (f := fun a => -a) (fun a ha => by omega) h

theorem maxLin_nil {ts : List (Nat × Int)} (hs : Sorted ts) : ∃ b, lin b ts = maxLin [] ts := ⟨_, lin_best [] hs⟩

theorem clause_sat_iff (b : Asg) (c : Clause) : Clause.sat b c ↔ 1 ≤ csum b (Clause.constr c).sum := by
  unfold Clause.constr
  simp only
  induction c with
  | nil => simp [Clause.sat, csum]
  | cons l c ih =>
    have h0 : 0 ≤ csum b (c.map fun l => ((1 : Int), l)) := by
      clear ih
      induction c with
      | nil => exact Int.le_refl _
      | cons l c ih => simp only [List.map_cons, csum]; rcases lbit_cases b l with h | h <;> rw [h] <;> omega
    simp only [List.map_cons, csum]
    have : Clause.sat b (l :: c) ↔ l.holds b = true ∨ Clause.sat b c := by
      simp [Clause.sat]
    rw [this, ih, ← lbit_one]
    rcases lbit_cases b l with h | h <;> rw [h] <;> omega

theorem sat_clause (b : Asg) (c : Clause) : (ofConstr (Clause.constr c)).sat b ↔ Clause.sat b c := by
  unfold Ineq.sat
  rw [slack_ofConstr, clause_sat_iff]
  show 0 ≤ _ - (1 : Int) ↔ _
  omega

theorem csum_nonneg_clause (b : Asg) (c : Clause) : 0 ≤ csum b (Clause.constr c).sum := by
  unfold Clause.constr
  simp only
  induction c with
  | nil => exact Int.le_refl _
  | cons l c ih => simp only [List.map_cons, csum]; rcases lbit_cases b l with h | h <;> rw [h] <;> omega

/-- A clause that follows from a constraint is accepted with this constraint as the only hint. -/
theorem rup_clause {s : State} {id : Nat} {D : Ineq} (hg : s.get id = some D) (hs : Sorted D.terms) {c : Clause}
    (h : ∀ b, D.sat b → Clause.sat b c) : rupOk s (ofConstr (Clause.constr c)) [id] = true := by
  unfold rupOk
  have : s.getAll [id] = some [D] := by simp only [State.getAll, hg]
  rw [if_neg (by simp), this]
  simp only
  apply conflict_complete (nz_neg (canon_ofConstr _)) hs
  · obtain ⟨b, hb⟩ := maxLin_nil (nz_neg (canon_ofConstr (Clause.constr c))).1
    have hsl : (ofConstr (Clause.constr c)).neg.slack b = - (ofConstr (Clause.constr c)).slack b - 1 := slack_neg b _
    rw [slack_ofConstr] at hsl
    have h0 := csum_nonneg_clause b c
    unfold Ineq.maxSlack
    rw [← hb]
    have : (ofConstr (Clause.constr c)).neg.slack b = lin b (ofConstr (Clause.constr c)).neg.terms - (ofConstr (Clause.constr c)).neg.deg := rfl
    rw [← this, hsl]
    show -(_ - (1 : Int)) - 1 ≤ 0
    omega
  · have : unassigned [] (ofConstr (Clause.constr c)).neg.terms ≤ (ofConstr (Clause.constr c)).neg.terms.length :=
      List.length_filter_le _ _
    have h2 : (ofConstr (Clause.constr c)).neg.terms.length ≤ nTerms ((ofConstr (Clause.constr c)).neg :: [D]) := by
      unfold nTerms
      simp only [List.map_cons, List.sum_cons]
      omega
    omega
  · intro b _ hn hd
    have := (sat_clause b c).2 (h b hd)
    unfold Ineq.sat at this hn
    rw [slack_neg] at hn
    omega

/-- The line for such a clause. -/
theorem step_rup_clause {s : State} {id : Nat} {D : Ineq} (hg : s.get id = some D) (hs : Sorted D.terms) {c : Clause}
    (h : ∀ b, D.sat b → Clause.sat b c) :
    step s (.rup (Clause.constr c) [id]) = some (s.push (ofConstr (Clause.constr c))) := by
  simp only [step, rup_clause hg hs h, if_true]

end VeriPb
end RustSat
