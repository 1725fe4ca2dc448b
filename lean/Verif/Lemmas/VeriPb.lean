import Verif.Spec.VeriPb
import Verif.Lemmas.Lit
/-
Facts about linear inequalities and the soundness of the checker.
-/
namespace RustSat
namespace VeriPb
open Pigeons

theorem bit_cases (b : Asg) (v : Nat) : bit b v = 0 ∨ bit b v = 1 := by
  unfold bit; cases b v <;> simp

theorem bit_true {b : Asg} {v : Nat} (h : b v = true) : bit b v = 1 := by unfold bit; rw [h]; rfl
theorem bit_false {b : Asg} {v : Nat} (h : b v = false) : bit b v = 0 := by unfold bit; rw [h]; rfl

/-- The value of a literal as a number. -/
def lbit (b : Asg) (l : Lit) : Int := if l.holds b then 1 else 0

theorem lbit_cases (b : Asg) (l : Lit) : lbit b l = 0 ∨ lbit b l = 1 := by
  unfold lbit; cases l.holds b <;> simp

theorem lbit_neg (b : Asg) (l : Lit) : lbit b l.neg = 1 - lbit b l := by
  unfold lbit; rw [Lit.holds_neg]; cases l.holds b <;> rfl

theorem lbit_eq (b : Asg) (l : Lit) : lbit b l = if l.isNeg then 1 - bit b l.var else bit b l.var := by
  unfold lbit bit Lit.holds
  cases l.isNeg <;> cases b l.var <;> rfl

theorem lbit_one {b : Asg} {l : Lit} : lbit b l = 1 ↔ l.holds b = true := by
  unfold lbit; cases l.holds b <;> simp

/-! ### Terms -/

/-- The canonical form of terms. -/
def Sorted (ts : List (Nat × Int)) : Prop := ts.Pairwise fun x y => x.1 < y.1

theorem lin_addTerm (b : Asg) (v : Nat) (a : Int) :
    ∀ ts, lin b (addTerm v a ts) = a * bit b v + lin b ts := by
  intro ts
  induction ts with
  | nil =>
    unfold addTerm
    by_cases h : a = 0
    · rw [if_pos h, h]; simp [lin]
    · rw [if_neg h]; rfl
  | cons t ts ih =>
    obtain ⟨w, c⟩ := t
    rw [addTerm]
    by_cases h : v < w
    · rw [if_pos h]
      by_cases ha : a = 0
      · rw [if_pos ha, ha]; simp
      · rw [if_neg ha]; rfl
    · rw [if_neg h]
      by_cases hv : v = w
      · rw [if_pos hv]
        subst hv
        by_cases hc : a + c = 0
        · rw [if_pos hc]; show _ = a * bit b v + (c * bit b v + lin b ts)
          rw [← Int.add_assoc, ← Int.add_mul, hc]; simp
        · rw [if_neg hc]; show (a + c) * bit b v + lin b ts = a * bit b v + (c * bit b v + lin b ts)
          rw [Int.add_mul]; omega
      · rw [if_neg hv]
        show c * bit b w + lin b (addTerm v a ts) = a * bit b v + (c * bit b w + lin b ts)
        rw [ih]; omega

theorem mem_addTerm {v : Nat} {a : Int} {x : Nat × Int} :
    ∀ {ts}, x ∈ addTerm v a ts → x.1 = v ∨ ∃ y ∈ ts, y.1 = x.1 := by
  intro ts
  induction ts with
  | nil =>
    intro h
    unfold addTerm at h
    by_cases ha : a = 0
    · rw [if_pos ha] at h; cases h
    · rw [if_neg ha] at h; rw [List.mem_singleton] at h; exact .inl (by rw [h])
  | cons t ts ih =>
    obtain ⟨w, c⟩ := t
    intro h
    rw [addTerm] at h
    by_cases hv : v < w
    · rw [if_pos hv] at h
      by_cases ha : a = 0
      · rw [if_pos ha] at h; exact .inr ⟨x, h, rfl⟩
      · rw [if_neg ha] at h
        rcases List.mem_cons.1 h with h | h
        · exact .inl (by rw [h])
        · exact .inr ⟨x, h, rfl⟩
    · rw [if_neg hv] at h
      by_cases he : v = w
      · rw [if_pos he] at h
        by_cases hc : a + c = 0
        · rw [if_pos hc] at h; exact .inr ⟨x, List.mem_cons_of_mem _ h, rfl⟩
        · rw [if_neg hc] at h
          rcases List.mem_cons.1 h with h | h
          · exact .inl (by rw [h, he])
          · exact .inr ⟨x, List.mem_cons_of_mem _ h, rfl⟩
      · rw [if_neg he] at h
        rcases List.mem_cons.1 h with h | h
        · exact .inr ⟨(w, c), List.mem_cons_self, by rw [h]⟩
        · rcases ih h with h | ⟨y, hy, h⟩
          · exact .inl h
          · exact .inr ⟨y, List.mem_cons_of_mem _ hy, h⟩

theorem sorted_addTerm {v : Nat} {a : Int} : ∀ {ts}, Sorted ts → Sorted (addTerm v a ts) := by
  intro ts
  induction ts with
  | nil =>
    intro _
    unfold addTerm
    by_cases ha : a = 0
    · rw [if_pos ha]; exact List.Pairwise.nil
    · rw [if_neg ha]; exact List.pairwise_singleton _ _
  | cons t ts ih =>
    obtain ⟨w, c⟩ := t
    intro h
    obtain ⟨h1, h2⟩ := List.pairwise_cons.1 h
    rw [addTerm]
    by_cases hv : v < w
    · rw [if_pos hv]
      by_cases ha : a = 0
      · rw [if_pos ha]; exact h
      · rw [if_neg ha]
        refine List.pairwise_cons.2 ⟨?_, h⟩
        intro y hy
        rcases List.mem_cons.1 hy with hy | hy
        · rw [hy]; exact hv
        · have := h1 y hy; simp only at this ⊢; omega
    · rw [if_neg hv]
      by_cases he : v = w
      · rw [if_pos he]
        by_cases hc : a + c = 0
        · rw [if_pos hc]; exact h2
        · rw [if_neg hc]; exact List.pairwise_cons.2 ⟨h1, h2⟩
      · rw [if_neg he]
        refine List.pairwise_cons.2 ⟨?_, ih h2⟩
        intro y hy
        rcases mem_addTerm hy with hy | ⟨z, hz, hy⟩
        · rw [hy]; show w < v; omega
        · rw [← hy]; exact h1 z hz

theorem lin_addTerms (b : Asg) (ts : List (Nat × Int)) : ∀ us, lin b (addTerms ts us) = lin b ts + lin b us := by
  intro us
  induction us with
  | nil => simp [addTerms, lin]
  | cons u us ih =>
    obtain ⟨v, a⟩ := u
    rw [addTerms, lin_addTerm, ih]
    show _ = lin b ts + (a * bit b v + lin b us)
    omega

theorem mem_addTerms {ts : List (Nat × Int)} :
    ∀ {us} {x : Nat × Int}, x ∈ addTerms ts us → (∃ y ∈ ts, y.1 = x.1) ∨ ∃ y ∈ us, y.1 = x.1 := by
  intro us
  induction us with
  | nil => intro x h; exact .inl ⟨x, h, rfl⟩
  | cons u us ih =>
    obtain ⟨v, a⟩ := u
    intro x h
    rw [addTerms] at h
    rcases mem_addTerm h with h | ⟨y, hy, h⟩
    · exact .inr ⟨(v, a), List.mem_cons_self, h.symm⟩
    · rcases ih hy with ⟨z, hz, h'⟩ | ⟨z, hz, h'⟩
      · exact .inl ⟨z, hz, h'.trans h⟩
      · exact .inr ⟨z, List.mem_cons_of_mem _ hz, h'.trans h⟩

theorem sorted_addTerms {ts : List (Nat × Int)} (h : Sorted ts) : ∀ us, Sorted (addTerms ts us) := by
  intro us
  induction us with
  | nil => exact h
  | cons u us ih => exact sorted_addTerm ih

theorem lin_map (b : Asg) (f : Int → Int) (k : Int) (hf : ∀ a, f a = k * a) :
    ∀ ts : List (Nat × Int), lin b (ts.map fun t => (t.1, f t.2)) = k * lin b ts := by
  intro ts
  induction ts with
  | nil => simp [lin]
  | cons t ts ih =>
    obtain ⟨v, a⟩ := t
    show f a * bit b v + lin b (ts.map fun t => (t.1, f t.2)) = k * (a * bit b v + lin b ts)
    rw [ih, hf, Int.mul_add, Int.mul_assoc]

theorem sorted_map {f : Int → Int} {ts : List (Nat × Int)} (h : Sorted ts) :
    Sorted (ts.map fun t => (t.1, f t.2)) := List.Pairwise.map _ (fun _ _ h => h) h

/-- An inequality mentions a variable. -/
def Ineq.Has (d : Ineq) (v : Nat) : Prop := ∃ t ∈ d.terms, t.1 = v

theorem lin_congr {b b' : Asg} : ∀ {ts : List (Nat × Int)}, (∀ t ∈ ts, b t.1 = b' t.1) → lin b ts = lin b' ts := by
  intro ts
  induction ts with
  | nil => intro _; rfl
  | cons t ts ih =>
    obtain ⟨v, a⟩ := t
    intro h
    show a * bit b v + lin b ts = a * bit b' v + lin b' ts
    rw [ih fun t ht => h t (List.mem_cons_of_mem _ ht)]
    have := h (v, a) List.mem_cons_self
    unfold bit; rw [this]

theorem slack_congr {d : Ineq} {b b' : Asg} (h : ∀ v, d.Has v → b v = b' v) : d.slack b = d.slack b' := by
  unfold Ineq.slack
  rw [lin_congr fun t ht => h t.1 ⟨t, ht, rfl⟩]

/-! ### Operations -/

theorem slack_trivial (b : Asg) : Ineq.trivial.slack b = 0 := rfl

theorem slack_axiom (b : Asg) (l : Lit) : (Ineq.axiom l).slack b = lbit b l := by
  rw [lbit_eq]
  unfold Ineq.axiom Ineq.slack
  cases l.isNeg
  · show 1 * bit b l.var + 0 - 0 = bit b l.var
    omega
  · show -1 * bit b l.var + 0 - -1 = 1 - bit b l.var
    omega

theorem slack_add (b : Asg) (c d : Ineq) : (c.add d).slack b = c.slack b + d.slack b := by
  unfold Ineq.add Ineq.slack
  simp only
  rw [lin_addTerms]; omega

theorem slack_mul (b : Asg) (d : Ineq) (k : Int) : (d.mul k).slack b = k * d.slack b := by
  unfold Ineq.mul
  by_cases h : k = 0
  · rw [if_pos h, h]; simp [Ineq.trivial, Ineq.slack, lin]
  · rw [if_neg h]
    unfold Ineq.slack
    simp only
    rw [lin_map b (fun a => k * a) k (fun _ => rfl), Int.mul_sub]

theorem slack_neg (b : Asg) (d : Ineq) : d.neg.slack b = - d.slack b - 1 := by
  unfold Ineq.neg Ineq.slack
  simp only
  rw [lin_map b (fun a => -a) (-1) (fun a => by omega)]; omega

/-- The value of `sum of coefficients times literals`. -/
def csum (b : Asg) : List (Int × Lit) → Int
  | [] => 0
  | (a, l) :: ts => a * lbit b l + csum b ts

theorem slack_ofConstr (b : Asg) (c : Constr) : (ofConstr c).slack b = csum b c.sum - c.rhs := by
  obtain ⟨sum, rhs⟩ := c
  unfold ofConstr
  simp only
  induction sum with
  | nil => rfl
  | cons t ts ih =>
    obtain ⟨a, l⟩ := t
    rw [List.foldr_cons]
    generalize ts.foldr _ _ = d at ih ⊢
    show (if l.isNeg then (⟨addTerm l.var (-a) d.terms, d.deg - a⟩ : Ineq) else ⟨addTerm l.var a d.terms, d.deg⟩).slack b
      = a * lbit b l + csum b ts - rhs
    rw [lbit_eq]
    unfold Ineq.slack at ih ⊢
    cases l.isNeg
    · show lin b (addTerm l.var a d.terms) - d.deg = a * bit b l.var + csum b ts - rhs
      rw [lin_addTerm]; omega
    · show lin b (addTerm l.var (-a) d.terms) - (d.deg - a) = a * (1 - bit b l.var) + csum b ts - rhs
      rw [lin_addTerm, Int.mul_sub, Int.neg_mul]; omega

theorem sorted_ofConstr (c : Constr) : Sorted (ofConstr c).terms := by
  obtain ⟨sum, rhs⟩ := c
  unfold ofConstr
  simp only
  induction sum with
  | nil => exact List.Pairwise.nil
  | cons t ts ih =>
    rw [List.foldr_cons]
    cases t.2.isNeg
    · exact sorted_addTerm ih
    · exact sorted_addTerm ih

theorem has_ofConstr {c : Constr} {v : Nat} (h : (ofConstr c).Has v) : ∃ t ∈ c.sum, t.2.var = v := by
  obtain ⟨sum, rhs⟩ := c
  unfold ofConstr at h
  simp only at h ⊢
  induction sum with
  | nil => obtain ⟨t, ht, _⟩ := h; cases ht
  | cons t ts ih =>
    rw [List.foldr_cons] at h
    have key : ∀ a : Int, (∃ x ∈ addTerm t.2.var a (ts.foldr (fun (t : Int × Lit) (d : Ineq) =>
        if t.2.isNeg then (⟨addTerm t.2.var (-t.1) d.terms, d.deg - t.1⟩ : Ineq) else ⟨addTerm t.2.var t.1 d.terms, d.deg⟩)
        ⟨[], rhs⟩).terms, x.1 = v) → ∃ s ∈ t :: ts, s.2.var = v := by
      intro a h
      obtain ⟨x, hx, hv⟩ := h
      rcases mem_addTerm hx with h' | ⟨y, hy, h'⟩
      · exact ⟨t, List.mem_cons_self, h'.symm.trans hv⟩
      · obtain ⟨s, hs, h''⟩ := ih ⟨y, hy, h'.trans hv⟩
        exact ⟨s, List.mem_cons_of_mem _ hs, h''⟩
    cases ht : t.2.isNeg with
    | false => rw [ht] at h; exact key _ h
    | true => rw [ht] at h; exact key _ h

theorem has_axiom {l : Lit} {v : Nat} (h : (Ineq.axiom l).Has v) : v = l.var := by
  obtain ⟨t, ht, hv⟩ := h
  unfold Ineq.axiom at ht
  cases hl : l.isNeg with
  | false =>
    rw [hl] at ht
    have ht' : t ∈ [(l.var, (1 : Int))] := ht
    rw [List.mem_singleton] at ht'; rw [← hv, ht']
  | true =>
    rw [hl] at ht
    have ht' : t ∈ [(l.var, (-1 : Int))] := ht
    rw [List.mem_singleton] at ht'; rw [← hv, ht']

theorem has_add {c d : Ineq} {v : Nat} (h : (c.add d).Has v) : c.Has v ∨ d.Has v := by
  obtain ⟨t, ht, hv⟩ := h
  rcases mem_addTerms ht with ⟨y, hy, h⟩ | ⟨y, hy, h⟩
  · exact .inl ⟨y, hy, h.trans hv⟩
  · exact .inr ⟨y, hy, h.trans hv⟩

theorem has_map {f : Int → Int} {ts : List (Nat × Int)} {v : Nat} {e : Int}
    (h : (⟨ts.map fun t => (t.1, f t.2), e⟩ : Ineq).Has v) : ∃ t ∈ ts, t.1 = v := by
  obtain ⟨t, ht, hv⟩ := h
  obtain ⟨s, hs, rfl⟩ := List.mem_map.1 ht
  exact ⟨s, hs, hv⟩

theorem has_mul {d : Ineq} {k : Int} {v : Nat} (h : (d.mul k).Has v) : d.Has v := by
  unfold Ineq.mul at h
  by_cases hk : k = 0
  · rw [if_pos hk] at h; obtain ⟨t, ht, _⟩ := h; cases ht
  · rw [if_neg hk] at h; exact has_map h

theorem has_saturate {d : Ineq} {v : Nat} (h : d.saturate.Has v) : d.Has v := by
  unfold Ineq.saturate at h
  by_cases hk : d.norm ≤ 0
  · rw [if_pos hk] at h; obtain ⟨t, ht, _⟩ := h; cases ht
  · rw [if_neg hk] at h; exact has_map (f := fun a => max (-d.norm) (min d.norm a)) h

theorem has_div {d : Ineq} {k v : Nat} (h : (d.div k).Has v) : d.Has v := by
  unfold Ineq.div at h
  exact has_map (f := fun a => if a < 0 then a / (k : Int) else -((-a) / (k : Int))) h

theorem sorted_add {c d : Ineq} (h : Sorted c.terms) : Sorted (c.add d).terms := sorted_addTerms h _

theorem sorted_axiom (l : Lit) : Sorted (Ineq.axiom l).terms := by
  unfold Ineq.axiom
  cases l.isNeg
  · exact List.pairwise_singleton _ _
  · exact List.pairwise_singleton _ _

theorem sorted_mul {d : Ineq} (h : Sorted d.terms) (k : Int) : Sorted (d.mul k).terms := by
  unfold Ineq.mul
  by_cases hk : k = 0
  · rw [if_pos hk]; exact List.Pairwise.nil
  · rw [if_neg hk]; exact sorted_map h

theorem sorted_saturate {d : Ineq} (h : Sorted d.terms) : Sorted d.saturate.terms := by
  unfold Ineq.saturate
  by_cases hk : d.norm ≤ 0
  · rw [if_pos hk]; exact List.Pairwise.nil
  · rw [if_neg hk]; exact sorted_map (f := fun a => max (-d.norm) (min d.norm a)) h

theorem sorted_div {d : Ineq} (h : Sorted d.terms) (k : Nat) : Sorted (d.div k).terms := by
  unfold Ineq.div
  exact sorted_map (f := fun a => if a < 0 then a / (k : Int) else -((-a) / (k : Int))) h

theorem sorted_neg {d : Ineq} (h : Sorted d.terms) : Sorted d.neg.terms := sorted_map (f := fun a => -a) h

theorem sorted_weaken {d : Ineq} (h : Sorted d.terms) (v : Nat) : Sorted (d.weaken v).terms :=
  List.Pairwise.filter _ h

/-! ### The normalized form -/

/-- The value of the normalized form. -/
def nval (b : Asg) (ts : List (Nat × Int)) : Int := lin b ts + negSum ts

theorem nval_cons (b : Asg) (v : Nat) (a : Int) (ts : List (Nat × Int)) :
    nval b ((v, a) :: ts) = (a * bit b v + if a < 0 then -a else 0) + nval b ts := by
  show a * bit b v + lin b ts + ((if a < 0 then -a else 0) + negSum ts) = _
  unfold nval; omega

theorem nval_nonneg (b : Asg) : ∀ ts, 0 ≤ nval b ts := by
  intro ts
  induction ts with
  | nil => exact Int.le_refl _
  | cons t ts ih =>
    obtain ⟨v, a⟩ := t
    rw [nval_cons]
    rcases bit_cases b v with h | h <;> rw [h] <;> by_cases ha : a < 0 <;> simp only [ha, if_true, if_false] <;> omega

theorem slack_nval (d : Ineq) (b : Asg) : d.slack b = nval b d.terms - d.norm := by
  unfold Ineq.slack nval Ineq.norm; omega

theorem norm_nonpos {d : Ineq} (hs : Sorted d.terms) : d.norm ≤ 0 ↔ ∀ b, 0 ≤ d.slack b := by
  constructor
  · intro h b
    rw [slack_nval]
    have := nval_nonneg b d.terms
    omega
  · intro h
    have key : ∀ (b : Asg) (ts : List (Nat × Int)), (∀ t ∈ ts, b t.1 = decide (t.2 < 0)) → nval b ts = 0 := by
      intro b ts
      induction ts with
      | nil => intro _; rfl
      | cons t ts ih =>
        obtain ⟨v, a⟩ := t
        intro hb
        rw [nval_cons, ih fun t ht => hb t (List.mem_cons_of_mem _ ht)]
        have h1 : b v = decide (a < 0) := hb (v, a) List.mem_cons_self
        by_cases ha : a < 0
        · rw [bit_true (by rw [h1]; exact decide_eq_true ha), if_pos ha]; omega
        · rw [bit_false (by rw [h1]; exact decide_eq_false ha), if_neg ha]; omega
    have hex : ∃ b : Asg, ∀ t ∈ d.terms, b t.1 = decide (t.2 < 0) := by
      refine ⟨fun v => d.terms.any fun t => t.1 == v && decide (t.2 < 0), ?_⟩
      intro t ht
      by_cases hlt : t.2 < 0
      · rw [decide_eq_true hlt]
        exact List.any_eq_true.2 ⟨t, ht, by simp [hlt]⟩
      · rw [decide_eq_false hlt]
        apply Bool.eq_false_iff.2
        intro hc
        obtain ⟨s, hs', hc⟩ := List.any_eq_true.1 hc
        rw [Bool.and_eq_true] at hc
        have h1 : s.1 = t.1 := beq_iff_eq.1 hc.1
        have h2 : s.2 < 0 := of_decide_eq_true hc.2
        have hst : s = t := by
          by_cases he : s = t
          · exact he
          · exfalso
            have hp : ∀ ts : List (Nat × Int), Sorted ts → s ∈ ts → t ∈ ts → False := by
              intro ts
              induction ts with
              | nil => intro _ h; cases h
              | cons x ts ih =>
                intro hts h3 h4
                obtain ⟨h5, h6⟩ := List.pairwise_cons.1 hts
                rcases List.mem_cons.1 h3 with h3 | h3 <;> rcases List.mem_cons.1 h4 with h4 | h4
                · exact he (h3.trans h4.symm)
                · have := h5 t h4; rw [← h3] at this; omega
                · have := h5 s h3; rw [← h4] at this; omega
                · exact ih h6 h3 h4
            exact hp d.terms hs hs' ht
        rw [hst] at h2; exact hlt h2
    obtain ⟨b, hb⟩ := hex
    have := h b
    rw [slack_nval, key b d.terms hb] at this
    omega

theorem implies_iff {c d : Ineq} (hd : Sorted d.terms) :
    implies c d = true ↔ ∀ b, c.slack b ≤ d.slack b := by
  unfold implies
  rw [decide_eq_true_iff, norm_nonpos (sorted_add hd)]
  constructor
  · intro h b; have := h b; rw [slack_add, slack_mul] at this; omega
  · intro h b; have := h b; rw [slack_add, slack_mul]; omega

theorem sat_saturate (d : Ineq) (b : Asg) : d.saturate.sat b ↔ d.sat b := by
  unfold Ineq.sat
  by_cases hk : d.norm ≤ 0
  · have h1 : d.saturate = ⟨[], d.norm⟩ := by unfold Ineq.saturate; rw [if_pos hk]
    rw [h1, slack_nval d]
    have := nval_nonneg b d.terms
    constructor
    · intro _; omega
    · intro _; show 0 ≤ 0 - d.norm; omega
  · have h1 : d.saturate = ⟨d.terms.map fun t => (t.1, max (-d.norm) (min d.norm t.2)),
        d.norm - negSum (d.terms.map fun t => (t.1, max (-d.norm) (min d.norm t.2)))⟩ := by
      unfold Ineq.saturate; rw [if_neg hk]
    rw [h1, slack_nval d]
    generalize d.norm = k at hk ⊢
    have key : ∀ ts : List (Nat × Int), nval b (ts.map fun t => (t.1, max (-k) (min k t.2))) ≤ nval b ts ∧
        (nval b ts ≤ nval b (ts.map fun t => (t.1, max (-k) (min k t.2))) ∨
          k ≤ nval b (ts.map fun t => (t.1, max (-k) (min k t.2)))) := by
      intro ts
      induction ts with
      | nil => exact ⟨Int.le_refl _, .inl (Int.le_refl _)⟩
      | cons t ts ih =>
        obtain ⟨v, a⟩ := t
        rw [List.map_cons, nval_cons, nval_cons]
        have hn := nval_nonneg b (ts.map fun t => (t.1, max (-k) (min k t.2)))
        simp only
        generalize nval b (ts.map fun t => (t.1, max (-k) (min k t.2))) = N' at ih hn ⊢
        generalize nval b ts = N at ih ⊢
        rcases bit_cases b v with h | h <;> rw [h] <;> simp only [Int.mul_zero, Int.mul_one] <;>
          by_cases ha : a < 0
        · rw [if_pos ha, if_pos (by omega)]; omega
        · rw [if_neg ha, if_neg (by omega)]; omega
        · rw [if_pos ha, if_pos (by omega)]; omega
        · rw [if_neg ha, if_neg (by omega)]; omega
    obtain ⟨k1, k2⟩ := key d.terms
    unfold nval at k1 k2
    unfold Ineq.slack nval
    simp only
    omega

theorem sat_div (d : Ineq) {k : Nat} (hk : 0 < k) {b : Asg} (h : d.sat b) : (d.div k).sat b := by
  unfold Ineq.sat at h ⊢
  rw [slack_nval] at h
  unfold Ineq.div
  rw [slack_nval]
  unfold Ineq.norm at h ⊢
  simp only
  generalize d.deg + negSum d.terms = e at h ⊢
  have hkp : (0 : Int) < k := by omega
  have key : ∀ ts : List (Nat × Int),
      nval b ts ≤ k * nval b (ts.map fun t => (t.1, if t.2 < 0 then t.2 / (k : Int) else -((-t.2) / (k : Int)))) := by
    intro ts
    induction ts with
    | nil => exact Int.le_of_eq (by simp [nval, lin, negSum])
    | cons t ts ih =>
      obtain ⟨v, a⟩ := t
      rw [List.map_cons, nval_cons, nval_cons, Int.mul_add]
      simp only
      generalize nval b (ts.map fun t => (t.1, if t.2 < 0 then t.2 / (k : Int) else -((-t.2) / (k : Int)))) = N' at ih ⊢
      have e1 := Int.emod_add_mul_ediv a k
      have e2 := Int.emod_nonneg a (show (k : Int) ≠ 0 by omega)
      have e3 := Int.emod_lt_of_pos a hkp
      have f1 := Int.emod_add_mul_ediv (-a) k
      have f2 := Int.emod_nonneg (-a) (show (k : Int) ≠ 0 by omega)
      have f3 := Int.emod_lt_of_pos (-a) hkp
      by_cases ha : a < 0
      · have hq : a / (k : Int) < 0 := Int.ediv_neg_of_neg_of_pos ha hkp
        simp only [ha, hq, if_true]
        rcases bit_cases b v with h | h <;> rw [h] <;> simp only [Int.mul_zero, Int.mul_one, Int.zero_add, Int.mul_neg] <;>
          omega
      · have hq : ¬ -((-a) / (k : Int)) < 0 := by
          intro hc
          have : 0 < (-a) / (k : Int) := by omega
          have h2 : (-a) / (k : Int) ≤ 0 := Int.ediv_nonpos_of_nonpos_of_neg (by omega) (by omega)
          omega
        simp only [ha, hq, if_false]
        rcases bit_cases b v with h | h <;> rw [h] <;>
          simp only [Int.mul_zero, Int.mul_one, Int.zero_add, Int.add_zero, Int.mul_neg] <;> omega
  have hx := key d.terms
  generalize nval b (d.terms.map fun t => (t.1, if t.2 < 0 then t.2 / (k : Int) else -((-t.2) / (k : Int)))) = N' at hx ⊢
  generalize nval b d.terms = N at h hx
  have f1 := Int.emod_add_mul_ediv (-e) k
  have f2 := Int.emod_nonneg (-e) (show (k : Int) ≠ 0 by omega)
  have f3 := Int.emod_lt_of_pos (-e) hkp
  have : e ≤ k * N' := by omega
  have h3 : -N' ≤ (-e) / (k : Int) := by
    apply Int.le_ediv_of_mul_le hkp
    rw [Int.neg_mul, Int.mul_comm]; omega
  omega

theorem lin_split (b : Asg) (p : Nat × Int → Bool) :
    ∀ ts, lin b ts = lin b (ts.filter fun t => p t) + lin b (ts.filter fun t => !p t) := by
  intro ts
  induction ts with
  | nil => rfl
  | cons t ts ih =>
    obtain ⟨v, a⟩ := t
    cases hp : p (v, a) with
    | true =>
      rw [List.filter_cons_of_pos (by exact hp), List.filter_cons_of_neg (by rw [hp]; simp)]
      show a * bit b v + lin b ts = a * bit b v + lin b _ + _
      omega
    | false =>
      rw [List.filter_cons_of_neg (by rw [hp]; simp), List.filter_cons_of_pos (by rw [hp]; rfl)]
      show a * bit b v + lin b ts = _ + (a * bit b v + lin b _)
      omega

theorem sat_weaken (d : Ineq) (v : Nat) {b : Asg} (h : d.sat b) : (d.weaken v).sat b := by
  unfold Ineq.sat Ineq.weaken Ineq.slack at *
  simp only at *
  have h1 := lin_split b (fun t => decide (t.1 ≠ v)) d.terms
  have h2 : (d.terms.filter fun t => !decide (t.1 ≠ v)) = d.terms.filter fun t => decide (t.1 = v) := by
    apply List.filter_congr
    intro t _
    by_cases ht : t.1 = v <;> simp [ht]
  rw [h2] at h1
  have h3 : ∀ ts : List (Nat × Int), lin b ts ≤ (ts.map fun t => max 0 t.2).sum := by
    intro ts
    induction ts with
    | nil => exact Int.le_refl _
    | cons t ts ih =>
      obtain ⟨w, a⟩ := t
      rw [List.map_cons, List.sum_cons]
      show a * bit b w + lin b ts ≤ max 0 a + _
      rcases bit_cases b w with h | h <;> rw [h] <;> omega
  have h4 := h3 (d.terms.filter fun t => decide (t.1 = v))
  omega

/-! ### Substitutions -/

/-- An assignment after setting a variable. -/
def upd (b : Asg) (v : Nat) (x : Bool) : Asg := fun w => if w = v then x else b w

theorem slack_fix (d : Ineq) (v : Nat) (x : Bool) (b : Asg) : (d.fix v x).slack b = d.slack (upd b v x) := by
  unfold Ineq.fix Ineq.slack
  simp only
  have h1 := lin_split (upd b v x) (fun t => decide (t.1 ≠ v)) d.terms
  have h2 : (d.terms.filter fun t => !decide (t.1 ≠ v)) = d.terms.filter fun t => decide (t.1 = v) := by
    apply List.filter_congr
    intro t _
    by_cases ht : t.1 = v <;> simp [ht]
  rw [h2] at h1
  rw [h1, lin_congr (b := upd b v x) (b' := b) (ts := d.terms.filter fun t => decide (t.1 ≠ v))]
  · have h3 : ∀ ts : List (Nat × Int), (∀ t ∈ ts, t.1 = v) →
        lin (upd b v x) ts = if x then (ts.map fun t => t.2).sum else 0 := by
      intro ts
      induction ts with
      | nil => intro _; cases x <;> rfl
      | cons t ts ih =>
        obtain ⟨w, a⟩ := t
        intro hv
        have hw : w = v := hv (w, a) List.mem_cons_self
        show a * bit (upd b v x) w + lin (upd b v x) ts = _
        rw [ih fun t ht => hv t (List.mem_cons_of_mem _ ht)]
        have hb : (upd b v x) w = x := by unfold upd; rw [if_pos hw]
        unfold bit; rw [hb]
        cases x
        · simp
        · simp
    rw [h3 _ fun t ht => of_decide_eq_true (List.mem_filter.1 ht).2]
    omega
  · intro t ht
    have : t.1 ≠ v := of_decide_eq_true (List.mem_filter.1 ht).2
    unfold upd; rw [if_neg this]

/-- An assignment after a substitution by values. -/
def updAll (b : Asg) : List (Nat × Bool) → Asg
  | [] => b
  | s :: w => upd (updAll b w) s.1 s.2

theorem slack_subst (w : List (Nat × Bool)) : ∀ (d : Ineq) (b : Asg), (d.subst w).slack b = d.slack (updAll b w) := by
  induction w with
  | nil => intro d b; rfl
  | cons s w ih =>
    intro d b
    show ((d.fix s.1 s.2).subst w).slack b = d.slack (upd (updAll b w) s.1 s.2)
    rw [ih, slack_fix]

theorem sorted_fix {d : Ineq} (h : Sorted d.terms) (v : Nat) (x : Bool) : Sorted (d.fix v x).terms :=
  List.Pairwise.filter _ h

theorem sorted_subst (w : List (Nat × Bool)) : ∀ {d : Ineq}, Sorted d.terms → Sorted (d.subst w).terms := by
  induction w with
  | nil => intro d h; exact h
  | cons s w ih => intro d h; exact ih (sorted_fix h _ _)

theorem updAll_other (b : Asg) {v : Nat} : ∀ w : List (Nat × Bool), v ∉ w.map (·.1) → updAll b w v = b v := by
  intro w
  induction w with
  | nil => intro _; rfl
  | cons s w ih =>
    intro h
    rw [List.map_cons, List.mem_cons, not_or] at h
    show (if v = s.1 then s.2 else updAll b w v) = b v
    rw [if_neg h.1, ih h.2]

/-! ### Soundness of the checker -/

/-- All constraints of the checker are in canonical form. -/
def State.Ok (s : State) : Prop := ∀ d ∈ s.constrs, Sorted d.terms

theorem State.get_mem {s : State} {id : Nat} {d : Ineq} (h : s.get id = some d) : d ∈ s.constrs := by
  unfold State.get at h
  unfold State.constrs
  obtain ⟨x, hx, h'⟩ : ∃ x ∈ s.db, x.2 = d := by
    generalize s.db = l at h
    induction l with
    | nil => cases h
    | cons p l ih =>
      obtain ⟨i, e⟩ := p
      rw [List.lookup_cons] at h
      cases hi : id == i with
      | true => rw [hi] at h; injection h with h; exact ⟨(i, e), List.mem_cons_self, h⟩
      | false =>
        rw [hi] at h
        obtain ⟨x, hx, h'⟩ := ih h
        exact ⟨x, List.mem_cons_of_mem _ hx, h'⟩
  exact List.mem_map.2 ⟨x, hx, h'⟩

theorem evalOp_inv {P : Ineq → Prop} {s : State} (hs : ∀ d ∈ s.constrs, P d) (op : Op) (hax : ∀ l, op = .ax l → P (Ineq.axiom l))
    (hadd : ∀ c d, P c → P d → P (c.add d)) (hmul : ∀ d (k : Nat), P d → P (d.mul k))
    (hdiv : ∀ d (k : Nat), 0 < k → P d → P (d.div k)) (hsat : ∀ d, P d → P d.saturate)
    (hweak : ∀ d v, P d → P (d.weaken v)) {stack stack' : List Ineq}
    (h : evalOp s stack op = some stack') (hst : ∀ d ∈ stack, P d) : ∀ d ∈ stack', P d := by
  cases op with
  | id n =>
    have h : (s.get n).map (· :: stack) = some stack' := h
    cases hg : s.get n with
    | none => rw [hg] at h; cases h
    | some d =>
      rw [hg] at h
      injection h with h
      subst h
      intro e he
      rcases List.mem_cons.1 he with he | he
      · rw [he]; exact hs d (State.get_mem hg)
      · exact hst e he
  | ax l =>
    injection h with h
    subst h
    intro e he
    rcases List.mem_cons.1 he with he | he
    · rw [he]; exact hax l rfl
    · exact hst e he
  | add =>
    cases stack with
    | nil => cases h
    | cons d stack =>
      cases stack with
      | nil => cases h
      | cons c stack =>
        injection h with h
        subst h
        intro e he
        rcases List.mem_cons.1 he with he | he
        · rw [he]
          exact hadd c d (hst c (by simp)) (hst d (by simp))
        · exact hst e (by simp [he])
  | mult k =>
    cases stack with
    | nil => cases h
    | cons d stack =>
      unfold evalOp at h
      simp only at h
      by_cases hk : k = 0
      · rw [if_pos hk] at h; cases h
      · rw [if_neg hk] at h
        injection h with h
        subst h
        intro e he
        rcases List.mem_cons.1 he with he | he
        · rw [he]; exact hmul d k (hst d (by simp))
        · exact hst e (by simp [he])
  | div k =>
    cases stack with
    | nil => cases h
    | cons d stack =>
      unfold evalOp at h
      simp only at h
      by_cases hk : k = 0
      · rw [if_pos hk] at h; cases h
      · rw [if_neg hk] at h
        injection h with h
        subst h
        intro e he
        rcases List.mem_cons.1 he with he | he
        · rw [he]; exact hdiv d k (by omega) (hst d (by simp))
        · exact hst e (by simp [he])
  | sat =>
    cases stack with
    | nil => cases h
    | cons d stack =>
      injection h with h
      subst h
      intro e he
      rcases List.mem_cons.1 he with he | he
      · rw [he]; exact hsat d (hst d (by simp))
      · exact hst e (by simp [he])
  | weak =>
    cases stack with
    | nil => cases h
    | cons x stack =>
      cases stack with
      | nil => cases h
      | cons d stack =>
        unfold evalOp at h
        simp only at h
        split at h
        · injection h with h
          subst h
          intro e he
          rcases List.mem_cons.1 he with he | he
          · rw [he]; exact hweak d _ (hst d (by simp))
          · exact hst e (by simp [he])
        · cases h

theorem evalOps_inv {P : Ineq → Prop} {s : State} (hs : ∀ d ∈ s.constrs, P d)
    (hadd : ∀ c d, P c → P d → P (c.add d)) (hmul : ∀ d (k : Nat), P d → P (d.mul k))
    (hdiv : ∀ d (k : Nat), 0 < k → P d → P (d.div k)) (hsat : ∀ d, P d → P d.saturate)
    (hweak : ∀ d v, P d → P (d.weaken v)) :
    ∀ (ops : Ops), (∀ l, .ax l ∈ ops → P (Ineq.axiom l)) → ∀ {stack stack' : List Ineq}, evalOps s ops stack = some stack' →
      (∀ d ∈ stack, P d) → ∀ d ∈ stack', P d := by
  intro ops
  induction ops with
  | nil => intro _ stack stack' h hst; injection h with h; subst h; exact hst
  | cons op ops ih =>
    intro hax stack stack' h hst
    rw [evalOps] at h
    cases ho : evalOp s stack op with
    | none => rw [ho] at h; cases h
    | some st =>
      rw [ho] at h
      exact ih (fun l hl => hax l (List.mem_cons_of_mem _ hl)) h
        (evalOp_inv hs op (fun l hl => hax l (by rw [hl]; exact List.mem_cons_self)) hadd hmul hdiv hsat hweak ho hst)

theorem sat_axiom (l : Lit) (b : Asg) : (Ineq.axiom l).sat b := by
  unfold Ineq.sat
  rw [slack_axiom]
  rcases lbit_cases b l with h | h <;> omega

theorem sat_add {c d : Ineq} {b : Asg} (hc : c.sat b) (hd : d.sat b) : (c.add d).sat b := by
  unfold Ineq.sat at *; rw [slack_add]; omega

theorem sat_mul {d : Ineq} {b : Asg} (h : d.sat b) (k : Nat) : (d.mul k).sat b := by
  unfold Ineq.sat at *; rw [slack_mul]; exact Int.mul_nonneg (by omega) h

theorem pol_sound {s : State} {ops : Ops} {d : Ineq} (h : evalOps s ops [] = some [d]) :
    (∀ b, s.sat b → d.sat b) ∧ (s.Ok → Sorted d.terms) := by
  constructor
  · intro b hb
    exact evalOps_inv (P := fun d => d.sat b) hb (fun _ _ => sat_add)
      (fun _ k h => sat_mul h k) (fun d _ hk h => sat_div d hk h) (fun d h => (sat_saturate d b).2 h)
      (fun d v h => sat_weaken d v h) ops (fun l _ => sat_axiom l b) h (fun d hd => nomatch hd) d (by simp)
  · intro hs
    exact evalOps_inv (P := fun d => Sorted d.terms) hs (fun _ _ h _ => sorted_add h)
      (fun _ k h => sorted_mul h k) (fun d k _ h => sorted_div h k) (fun d h => sorted_saturate h)
      (fun d v h => sorted_weaken h v) ops (fun l _ => sorted_axiom l) h (fun d hd => nomatch hd) d (by simp)

/-- An assignment extends a partial assignment. -/
def Extends (b : Asg) (p : Partial) : Prop := ∀ v x, p.lookup v = some x → b v = x

theorem lin_le_maxLin {b : Asg} {p : Partial} (h : Extends b p) : ∀ ts, lin b ts ≤ maxLin p ts := by
  intro ts
  induction ts with
  | nil => exact Int.le_refl _
  | cons t ts ih =>
    obtain ⟨v, a⟩ := t
    show a * bit b v + lin b ts ≤ (match p.lookup v with | some x => if x then a else 0 | none => max 0 a) + maxLin p ts
    cases hp : p.lookup v with
    | none => rcases bit_cases b v with h | h <;> rw [h] <;> simp only <;> omega
    | some x =>
      have := h v x hp
      cases x
      · rw [bit_false this]; simp; exact ih
      · rw [bit_true this]; simp; exact ih

theorem lin_unit {b : Asg} {p : Partial} (h : Extends b p) {t : Nat × Int} (hn : p.lookup t.1 = none)
    (hb : b t.1 ≠ decide (0 < t.2)) : ∀ ts, t ∈ ts → lin b ts ≤ maxLin p ts - t.2.natAbs := by
  intro ts
  induction ts with
  | nil => intro h; cases h
  | cons s ts ih =>
    obtain ⟨v, a⟩ := s
    intro ht
    show a * bit b v + lin b ts ≤ (match p.lookup v with | some x => if x then a else 0 | none => max 0 a) + maxLin p ts - _
    rcases List.mem_cons.1 ht with ht | ht
    · subst ht
      rw [hn]
      have h1 := lin_le_maxLin h ts
      simp only at hb ⊢
      by_cases ha : 0 < a
      · rw [decide_eq_true ha] at hb
        rw [bit_false (by cases h : b v with | false => rfl | true => exact absurd h hb)]
        omega
      · rw [decide_eq_false ha] at hb
        rw [bit_true (by cases h : b v with | true => rfl | false => exact absurd h hb)]
        omega
    · have h1 := ih ht
      cases hp : p.lookup v with
      | none => rcases bit_cases b v with h | h <;> rw [h] <;> simp only <;> omega
      | some x =>
        have := h v x hp
        cases x
        · rw [bit_false this]; simp; omega
        · rw [bit_true this]; simp; omega

theorem units_sound {d : Ineq} {p : Partial} {b : Asg} (hb : Extends b p) (hd : d.sat b) {u : Nat × Bool}
    (hu : u ∈ d.units p) : b u.1 = u.2 := by
  unfold Ineq.units at hu
  obtain ⟨t, ht, rfl⟩ := List.mem_map.1 hu
  obtain ⟨ht, hc⟩ := List.mem_filter.1 ht
  rw [Bool.and_eq_true] at hc
  simp only
  by_cases he : b t.1 = decide (0 < t.2)
  · exact he
  · exfalso
    have h1 := lin_unit hb (by simpa using hc.1) he d.terms ht
    have h2 := of_decide_eq_true hc.2
    unfold Ineq.sat Ineq.slack at hd
    unfold Ineq.maxSlack at h2
    omega

theorem conflict_sound {cs : List Ineq} {b : Asg} (hcs : ∀ d ∈ cs, d.sat b) :
    ∀ fuel p, Extends b p → conflict cs fuel p = false := by
  intro fuel
  induction fuel with
  | zero => intro p _; rfl
  | succ fuel ih =>
    intro p hp
    rw [conflict]
    have h1 : (cs.any fun d => decide (d.maxSlack p < 0)) = false := by
      apply Bool.eq_false_iff.2
      intro hc
      obtain ⟨d, hd, hc⟩ := List.any_eq_true.1 hc
      have h2 := of_decide_eq_true hc
      have h3 := lin_le_maxLin hp d.terms
      have h4 := hcs d hd
      unfold Ineq.sat Ineq.slack at h4
      unfold Ineq.maxSlack at h2
      omega
    rw [h1]
    simp only [Bool.false_eq_true, if_false]
    cases hf : cs.findSome? fun d => (d.units p).head? with
    | none => rfl
    | some u =>
      simp only
      obtain ⟨d, hd, hu⟩ := List.exists_of_findSome?_eq_some hf
      apply ih
      intro v x hv
      rw [List.lookup_cons] at hv
      cases hvu : v == u.1 with
      | true =>
        rw [hvu] at hv
        injection hv with hv
        rw [beq_iff_eq.1 hvu, ← hv]
        exact units_sound hp (hcs d hd) (List.mem_of_mem_head? (by rw [hu]; rfl))
      | false => rw [hvu] at hv; exact hp v x hv

theorem getAll_mem {s : State} : ∀ {ids : List Nat} {cs : List Ineq}, s.getAll ids = some cs →
    ∀ d ∈ cs, d ∈ s.constrs := by
  intro ids
  induction ids with
  | nil => intro cs h d hd; injection h with h; subst h; cases hd
  | cons id ids ih =>
    intro cs h d hd
    rw [State.getAll] at h
    cases h1 : s.get id with
    | none => rw [h1] at h; cases h
    | some e =>
      cases h2 : s.getAll ids with
      | none => rw [h1, h2] at h; cases h
      | some es =>
        rw [h1, h2] at h
        injection h with h
        subst h
        rcases List.mem_cons.1 hd with hd | hd
        · rw [hd]; exact State.get_mem h1
        · exact ih h2 d hd

theorem rup_sound {s : State} {d : Ineq} {hints : List Nat} (h : rupOk s d hints = true) {b : Asg} (hb : s.sat b) :
    d.sat b := by
  unfold rupOk at h
  cases hcs : (if hints = [] then some s.constrs else s.getAll hints) with
  | none => rw [hcs] at h; cases h
  | some cs =>
    rw [hcs] at h
    simp only at h
    have hsub : ∀ e ∈ cs, e ∈ s.constrs := by
      by_cases he : hints = []
      · rw [if_pos he] at hcs; injection hcs with hcs; rw [← hcs]; exact fun e he => he
      · rw [if_neg he] at hcs; exact getAll_mem hcs
    by_cases hd : d.sat b
    · exact hd
    · exfalso
      have hn : d.neg.sat b := by
        unfold Ineq.sat at hd ⊢
        rw [slack_neg]; omega
      have := conflict_sound (cs := d.neg :: cs) (b := b) (by
        intro e he
        rcases List.mem_cons.1 he with he | he
        · rw [he]; exact hn
        · exact hb e (hsub e he)) (nTerms (d.neg :: cs) + 1) [] (fun v x hv => by cases hv)
      rw [this] at h; cases h

theorem red_sound {s : State} (hs : s.Ok) {d : Ineq} (hd : Sorted d.terms) {w : List (Nat × Bool)}
    (h : redOk s d w = true) {b : Asg} (hb : s.sat b) :
    ∃ b', (∀ e ∈ d :: s.constrs, e.sat b') ∧ ∀ v, v ∉ w.map (·.1) → b' v = b v := by
  by_cases hdb : d.sat b
  · refine ⟨b, ?_, fun _ _ => rfl⟩
    intro e he
    rcases List.mem_cons.1 he with he | he
    · rw [he]; exact hdb
    · exact hb e he
  · refine ⟨updAll b w, ?_, fun v hv => updAll_other b w hv⟩
    intro e he
    have h1 := List.all_eq_true.1 h e he
    obtain ⟨c, hc, h2⟩ := List.any_eq_true.1 h1
    have hse : Sorted e.terms := by
      rcases List.mem_cons.1 he with he | he
      · rw [he]; exact hd
      · exact hs e he
    have h3 := (implies_iff (sorted_subst w hse)).1 h2 b
    rw [slack_subst] at h3
    have h4 : c.sat b := by
      rcases List.mem_cons.1 hc with hc | hc
      · rw [hc]; exact Int.le_refl _
      · rcases List.mem_cons.1 hc with hc | hc
        · rw [hc]; unfold Ineq.sat at hdb ⊢; rw [slack_neg]; omega
        · exact hb c hc
    unfold Ineq.sat at h4 ⊢
    omega

/-- The variables replaced in redundance steps. -/
def witnessVars : List Line → List Nat
  | [] => []
  | .red _ w :: ls => w.map (·.1) ++ witnessVars ls
  | _ :: ls => witnessVars ls

theorem sat_push {s : State} {d : Ineq} {b : Asg} : (s.push d).sat b ↔ d.sat b ∧ s.sat b := by
  unfold State.sat State.push State.constrs
  simp

theorem ok_push {s : State} {d : Ineq} : (s.push d).Ok ↔ Sorted d.terms ∧ s.Ok := by
  unfold State.Ok State.push State.constrs
  simp

theorem step_sound {s s' : State} (hs : s.Ok) {l : Line} (h : step s l = some s') :
    s'.Ok ∧ ∀ b, s.sat b → ∃ b', s'.sat b' ∧ ∀ v, v ∉ witnessVars [l] → b' v = b v := by
  cases l with
  | pol ops =>
    have h : (match evalOps s ops [] with | some [d] => some (s.push d) | _ => none) = some s' := h
    split at h
    · rename_i d hd
      injection h with h
      subst h
      obtain ⟨h1, h2⟩ := pol_sound hd
      exact ⟨ok_push.2 ⟨h2 hs, hs⟩, fun b hb => ⟨b, sat_push.2 ⟨h1 b hb, hb⟩, fun _ _ => rfl⟩⟩
    · cases h
  | rup c hints =>
    unfold step at h
    simp only at h
    by_cases hc : rupOk s (ofConstr c) hints = true
    · rw [if_pos hc] at h
      injection h with h
      subst h
      exact ⟨ok_push.2 ⟨sorted_ofConstr c, hs⟩, fun b hb => ⟨b, sat_push.2 ⟨rup_sound hc hb, hb⟩, fun _ _ => rfl⟩⟩
    · rw [if_neg hc] at h; cases h
  | red c w =>
    unfold step at h
    simp only at h
    by_cases hc : redOk s (ofConstr c) w = true
    · rw [if_pos hc] at h
      injection h with h
      subst h
      refine ⟨ok_push.2 ⟨sorted_ofConstr c, hs⟩, fun b hb => ?_⟩
      obtain ⟨b', h1, h2⟩ := red_sound hs (sorted_ofConstr c) hc hb
      refine ⟨b', sat_push.2 ⟨h1 _ List.mem_cons_self, fun e he => h1 e (List.mem_cons_of_mem _ he)⟩, ?_⟩
      intro v hv
      apply h2 v
      intro hv'
      exact hv (by unfold witnessVars; exact List.mem_append_left _ hv')
    · rw [if_neg hc] at h; cases h
  | del ids =>
    unfold step at h
    simp only at h
    split at h
    · injection h with h
      subst h
      have hsub : ∀ d, d ∈ (s.db.filter fun x => !ids.contains x.1).map (·.2) → d ∈ s.constrs := by
        intro d hd
        obtain ⟨x, hx, rfl⟩ := List.mem_map.1 hd
        exact List.mem_map.2 ⟨x, (List.mem_filter.1 hx).1, rfl⟩
      exact ⟨fun d hd => hs d (hsub d hd), fun b hb => ⟨b, fun d hd => hb d (hsub d hd), fun _ _ => rfl⟩⟩
    · cases h

theorem run_sound : ∀ (ls : List Line) {s s' : State}, s.Ok → run s ls = some s' →
    s'.Ok ∧ ∀ b, s.sat b → ∃ b', s'.sat b' ∧ ∀ v, v ∉ witnessVars ls → b' v = b v := by
  intro ls
  induction ls with
  | nil => intro s s' hs h; injection h with h; subst h; exact ⟨hs, fun b hb => ⟨b, hb, fun _ _ => rfl⟩⟩
  | cons l ls ih =>
    intro s s' hs h
    rw [run] at h
    cases hl : step s l with
    | none => rw [hl] at h; cases h
    | some s1 =>
      rw [hl] at h
      obtain ⟨h1, h2⟩ := step_sound hs hl
      obtain ⟨h3, h4⟩ := ih h1 h
      refine ⟨h3, fun b hb => ?_⟩
      obtain ⟨b1, hb1, ha1⟩ := h2 b hb
      obtain ⟨b2, hb2, ha2⟩ := h4 b1 hb1
      refine ⟨b2, hb2, fun v hv => ?_⟩
      have hsplit : v ∉ witnessVars [l] ∧ v ∉ witnessVars ls := by
        cases l <;> simp only [witnessVars, List.mem_append, not_or, List.append_nil] at hv ⊢ <;>
          first
          | exact hv
          | exact ⟨fun h => (by cases h), hv⟩
      rw [ha2 v hsplit.2, ha1 v hsplit.1]

end VeriPb
end RustSat
