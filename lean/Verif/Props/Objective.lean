import Verif.Lemmas.Objective2
import Verif.Props.Instance
import Verif.Props.VarManager
/-
Property theorems C21 (modifying objectives), C22 (conversions), C23 (normalisation), C20 (re-indexing of
objectives) and C47 (cost).
-/
namespace RustSat
open Objective

private def x0 : Lit := Lit.mk' 0 false
private def x1 : Lit := Lit.mk' 1 false
private def x2 : Lit := Lit.mk' 2 false

/-! ### C21 -/

/-- The sum of the amounts of a history. -/
def totalAmount (a : Asg) (ops : List ObjectiveOp) : Int := (ops.map (ObjectiveOp.amount a)).sum

private theorem apply_spec (o : Objective) (h : o.WF) (op : ObjectiveOp) :
    (op.apply o).WF ∧ ∀ a, (op.apply o).value a = o.value a + op.amount a := by
  cases op with
  | lit w l =>
    obtain ⟨h1, h2⟩ := increaseSoftLit_spec o h w l
    refine ⟨h1, fun a => ?_⟩
    simp only [ObjectiveOp.apply, h2, ObjectiveOp.amount]
    try (split <;> simp)
  | litInt w l => exact increaseSoftLitInt_spec o h w l
  | clause w c =>
    obtain ⟨h1, h2⟩ := increaseSoftClause_spec o h w c
    refine ⟨h1, fun a => ?_⟩
    simp only [ObjectiveOp.apply, h2, ObjectiveOp.amount]
    try (split <;> simp)
  | offset i => exact increaseOffset_spec o h i

private theorem history_from (ops : List ObjectiveOp) (o : Objective) (h : o.WF) :
    (ops.foldl ObjectiveOp.apply o).WF ∧
    ∀ a, (ops.foldl ObjectiveOp.apply o).value a = o.value a + totalAmount a ops := by
  induction ops generalizing o with
  | nil => exact ⟨h, fun a => by simp [totalAmount]⟩
  | cons op ops ih =>
    obtain ⟨h1, h2⟩ := apply_spec o h op
    obtain ⟨h3, h4⟩ := ih _ h1
    refine ⟨h3, fun a => ?_⟩
    rw [List.foldl_cons, h4, h2]
    simp only [totalAmount, List.map_cons, List.sum_cons]
    omega

private theorem wf_default : Objective.default.WF := by simp [Objective.default, WF]
private theorem value_default (a : Asg) : Objective.default.value a = 0 := by
  simp [Objective.default, value]

/-- C21: after any history of `increase_soft_lit`, `increase_soft_lit_int`, `increase_soft_clause` and
`increase_offset` on a new objective, the cost of every assignment is the sum of the amounts of the calls,
no matter which internal representation is in use. -/
theorem C21_history (ops : List ObjectiveOp) (a : Asg) :
    (ops.foldl ObjectiveOp.apply Objective.default).WF ∧
    (ops.foldl ObjectiveOp.apply Objective.default).value a = totalAmount a ops := by
  obtain ⟨h1, h2⟩ := history_from ops _ wf_default
  refine ⟨h1, ?_⟩
  rw [h2, value_default]; omega

example : ([ObjectiveOp.lit 2 x0, .clause 2 [x1, x2], .litInt (-3) x1, .offset 5].foldl
    ObjectiveOp.apply Objective.default) =
    .weighted 2 [(x0, 2), (x1.neg, 3)] [([x1, x2], 2)] := by decide

/-- C21: a single call on any well-formed objective changes the cost by its amount. -/
theorem C21_increase (o : Objective) (h : o.WF) (op : ObjectiveOp) :
    (op.apply o).WF ∧ ∀ a, (op.apply o).value a = o.value a + op.amount a := apply_spec o h op

/-- C21: the collected objective of an iterator of weighted literals or clauses has the cost function given by
the list, including repetitions. -/
theorem C21_from_iterators (a : Asg) (ls : List (Lit × Nat)) (is : List (Lit × Int)) (cs : List (Clause × Nat)) :
    (ofLits ls).WF ∧ (ofLits ls).value a = wsum a ls ∧
    (ofIntLits is).WF ∧ (ofIntLits is).value a = isum a is ∧
    (ofClauses cs).WF ∧ (ofClauses cs).value a = clsCost a cs := by
  have e1 : ofLits ls = (ls.map fun p => ObjectiveOp.lit p.2 p.1).foldl ObjectiveOp.apply default := by
    rw [ofLits, List.foldl_map]; rfl
  have e2 : ofIntLits is = (is.map fun p => ObjectiveOp.litInt p.2 p.1).foldl ObjectiveOp.apply default := by
    rw [ofIntLits, List.foldl_map]; rfl
  have e3 : ofClauses cs = (cs.map fun p => ObjectiveOp.clause p.2 p.1).foldl ObjectiveOp.apply default := by
    rw [ofClauses, List.foldl_map]; rfl
  have s1 : totalAmount a (ls.map fun p => ObjectiveOp.lit p.2 p.1) = wsum a ls := by
    clear e1
    induction ls with
    | nil => rfl
    | cons p ls ih =>
      simp only [totalAmount, List.map_cons, List.sum_cons, ObjectiveOp.amount, wsum] at ih ⊢
      rw [ih]; split <;> simp
  have s2 : totalAmount a (is.map fun p => ObjectiveOp.litInt p.2 p.1) = isum a is := by
    clear e2
    induction is with
    | nil => rfl
    | cons p is ih =>
      simp only [totalAmount, List.map_cons, List.sum_cons, ObjectiveOp.amount, isum] at ih ⊢
      rw [ih]
  have s3 : totalAmount a (cs.map fun p => ObjectiveOp.clause p.2 p.1) = clsCost a cs := by
    clear e3
    induction cs with
    | nil => rfl
    | cons p cs ih =>
      simp only [totalAmount, List.map_cons, List.sum_cons, ObjectiveOp.amount, clsCost] at ih ⊢
      rw [ih]; split <;> simp
  rw [e1, e2, e3, ← s1, ← s2, ← s3]
  exact ⟨(C21_history _ a).1, (C21_history _ a).2, (C21_history _ a).1, (C21_history _ a).2,
    (C21_history _ a).1, (C21_history _ a).2⟩

/-- C21: switching between the representations changes nothing. -/
theorem C21_representation (o : Objective) (h : o.WF) :
    o.toWeighted.WF ∧ o.toUnweighted.WF ∧
    (∃ off sl sc, o.toWeighted = .weighted off sl sc) ∧
    (∃ off u sl sc, o.toUnweighted = .unweighted off u sl sc) ∧
    ∀ a, o.toWeighted.value a = o.value a ∧ o.toUnweighted.value a = o.value a := by
  obtain ⟨off, sl, sc, h1, h2, h3⟩ := toWeighted_spec o h
  obtain ⟨off', u', sl', sc', h1', h2', h3'⟩ := toUnweighted_spec o h
  rw [h1, h1']
  exact ⟨h2, h2', ⟨_, _, _, rfl⟩, ⟨_, _, _, _, rfl⟩, fun a => ⟨h3 a, h3' a⟩⟩

example : (Objective.unweighted 1 (some 3) [x0, x0] [[x1, x2]]).toWeighted =
    .weighted 1 [(x0, 6)] [([x1, x2], 3)] := by decide

/-- C21: the offset is a lower bound and the offset plus `weight_sum` an upper bound on the cost. -/
theorem C21_bounds (o : Objective) (a : Asg) :
    o.offset ≤ o.value a ∧ o.value a ≤ o.offset + o.weightSum := by
  cases o with
  | weighted off sl sc =>
    rw [value_weighted]
    have h1 := msum_le (fun l => Lit.holds a l) sl
    have h2 := msum_le (Clause.falsified a) sc
    simp only [offset, weightSum, litWeightSum, clauseWeightSum]
    omega
  | unweighted off u sl sc =>
    rw [value_unweighted]
    have h1 := List.countP_le_length (p := fun l => Lit.holds a l) (l := sl)
    have h2 := List.countP_le_length (p := Clause.falsified a) (l := sc)
    simp only [offset, weightSum, litWeightSum, clauseWeightSum]
    have := Nat.mul_le_mul_left (u.getD 0) (Nat.add_le_add h1 h2)
    rw [Nat.mul_add (u.getD 0) sl.length, Nat.mul_comm _ sl.length, Nat.mul_comm _ sc.length] at this
    omega

private theorem findIdx?_beq {α : Type} [BEq α] [LawfulBEq α] {l : List α} {x : α} {i : Nat}
    (h : l.findIdx? (· == x) = some i) : ∃ hi : i < l.length, l[i] = x := by
  obtain ⟨hi, h1, _⟩ := List.findIdx?_eq_some_iff_getElem.1 h
  exact ⟨hi, by simpa using h1⟩

private theorem mem_vecSwapRemove {α : Type} {l : List α} {i : Nat} {x : α} (h : x ∈ vecSwapRemove l i) : x ∈ l := by
  unfold vecSwapRemove at h
  cases hl : l.getLast? with
  | none => rw [hl] at h; exact h
  | some y =>
    rw [hl] at h
    have h' := List.dropLast_subset _ h
    rcases List.mem_or_eq_of_mem_set h' with h' | rfl
    · exact h'
    · exact List.mem_of_getLast? hl

/-- The soft literals of an unweighted objective contain `l` at most once. -/
def Objective.litOnce (o : Objective) (l : Lit) : Prop :=
  match o with
  | .weighted .. => True
  | .unweighted _ _ sl _ => sl.count l ≤ 1
/-- The soft clauses of an unweighted objective contain `c` at most once. -/
def Objective.clauseOnce (o : Objective) (c : Clause) : Prop :=
  match o with
  | .weighted .. => True
  | .unweighted _ _ _ sc => sc.count c ≤ 1

private theorem addSoftLit_spec (o : Objective) (h : o.WF) (w : Nat) (l : Lit) :
    ∃ old o', o.addSoftLit w l = some (old, o') ∧ o'.WF ∧
      ∀ a, o'.value a + (if l.holds a then (old.getD 0 : Int) else 0) =
        o.value a + if l.holds a then (w : Int) else 0 := by
  cases o with
  | weighted off sl sc =>
    have hr := fun a : Asg => HMap.msum_remove (fun l => Lit.holds a l) h.1 l
    by_cases hw : w = 0
    · refine ⟨HMap.get sl l, .weighted off (HMap.remove sl l) sc, by simp only [addSoftLit, if_pos hw],
        ⟨HMap.nodup_remove h.1 _, h.2⟩, fun a => ?_⟩
      simp only [value_weighted, hr a]
      cases l.holds a <;> simp <;> omega
    · refine ⟨HMap.get sl l, .weighted off (HMap.insert sl l w) sc, by simp only [addSoftLit, if_neg hw],
        ⟨HMap.nodup_insert h.1 _ _, h.2⟩, fun a => ?_⟩
      simp only [value_weighted, HMap.msum_insert, hr a]
      cases l.holds a <;> simp <;> omega
  | unweighted off u sl sc =>
    by_cases hw : w = 0
    · cases hf : sl.findIdx? (· == l) with
      | none =>
        refine ⟨none, .unweighted off u sl sc, by simp only [addSoftLit, if_pos hw, hf], h, fun a => ?_⟩
        subst hw; simp
      | some i =>
        obtain ⟨hi, e⟩ := findIdx?_beq hf
        cases u with
        | none => have := (h.1 rfl).1; subst this; simp at hi
        | some u =>
          refine ⟨some u, .unweighted off (some u) (vecSwapRemove sl i) sc,
            by simp only [addSoftLit, if_pos hw, hf], ⟨by simp, h.2⟩, fun a => ?_⟩
          have := countP_vecSwapRemove (fun l => Lit.holds a l) sl i hi
          rw [e] at this
          simp only [value_unweighted, this, Option.getD_some]
          subst hw
          cases l.holds a
          · simp
          · simp only [if_true]; simp [Nat.mul_add]; omega
    · cases u with
      | none =>
        obtain ⟨rfl, rfl⟩ := h.1 rfl
        refine ⟨none, .unweighted off (some w) ([] ++ [l]) [], by simp only [addSoftLit, if_neg hw],
          ⟨by simp, by simp⟩, fun a => ?_⟩
        simp only [value_unweighted]
        cases hl : l.holds a <;> simp [hl]
      | some u =>
        by_cases hu : w = u
        · by_cases hm : sl.any (· == l) = true
          · refine ⟨some u, .unweighted off (some u) sl sc, by simp only [addSoftLit, if_neg hw, if_pos hu, if_pos hm],
              h, fun a => ?_⟩
            subst hu; simp
          · refine ⟨none, .unweighted off (some u) (sl ++ [l]) sc,
              by simp only [addSoftLit, if_neg hw, if_pos hu]; rw [if_neg hm], ⟨by simp, h.2⟩, fun a => ?_⟩
            subst hu
            simp only [value_unweighted, List.countP_append, List.countP_singleton]
            cases hl : l.holds a <;> simp [Int.mul_add]; omega
        · obtain ⟨off', sl', sc', h1, h2, h3⟩ := toWeighted_spec _ h
          have hr := fun a : Asg => HMap.msum_remove (fun l => Lit.holds a l) h2.1 l
          refine ⟨HMap.get sl' l, .weighted off' (HMap.insert sl' l w) sc',
            by simp only [addSoftLit, if_neg hw, if_neg hu, h1],
            ⟨HMap.nodup_insert h2.1 _ _, h2.2⟩, fun a => ?_⟩
          rw [← h3]
          simp only [value_weighted, HMap.msum_insert, hr a]
          cases l.holds a <;> simp <;> omega

/-- C21 for `add_soft_lit`: the returned previous weight is replaced by the new weight. Partial: the
documented meaning "the literal now has weight `w`" does not hold if the unweighted representation contains
the literal several times, because then the returned weight is not the whole weight of the literal
(`C21_violated_duplicates`). -/
theorem C21_add_soft_lit_partial (o : Objective) (h : o.WF) (w : Nat) (l : Lit) :
    ∃ old o', o.addSoftLit w l = some (old, o') ∧ o'.WF ∧
      ∀ a, o'.value a = o.value a + if l.holds a then (w : Int) - (old.getD 0 : Nat) else 0 := by
  obtain ⟨old, o', h1, h2, h3⟩ := addSoftLit_spec o h w l
  refine ⟨old, o', h1, h2, fun a => ?_⟩
  have := h3 a
  split at this
  · rw [if_pos (by assumption)]; omega
  · rw [if_neg (by assumption)]; omega

/-- The total weight of a literal in the objective. -/
def Objective.litTotal (o : Objective) (l : Lit) : Nat :=
  match o with
  | .weighted _ sl _ => ((sl.filter fun p => p.1 == l).map (·.2)).sum
  | .unweighted _ u sl _ => u.getD 0 * sl.count l

private theorem get_eq_sum {m : List (Lit × Nat)} (h : (m.map (·.1)).Nodup) (l : Lit) :
    (HMap.get m l).getD 0 = ((m.filter fun p => p.1 == l).map (·.2)).sum := by
  induction m with
  | nil => rfl
  | cons p m ih =>
    obtain ⟨k, w⟩ := p
    simp only [List.map_cons, List.nodup_cons] at h
    rw [HMap.get, List.filter_cons]
    by_cases e : k = l
    · subst e
      have hnil : m.filter (fun p => p.1 == k) = [] := by
        rw [List.filter_eq_nil_iff]
        intro q hq hk
        exact h.1 (List.mem_map.2 ⟨q, hq, by simpa using hk⟩)
      simp [hnil]
    · rw [if_neg e, ih h.2]; simp [e]

/-- C21 for `lit_weight` and `add_soft_lit`: if the objective does not contain the literal repeatedly,
`lit_weight` is the weight of the literal, and `add_soft_lit` returns the previous weight. -/
theorem C21_lit_weight_partial (o : Objective) (h : o.WF) (l : Lit) (h1 : o.litOnce l) :
    ∃ old, o.litWeight l = some old ∧ old.getD 0 = o.litTotal l := by
  cases o with
  | weighted off sl sc => exact ⟨_, rfl, get_eq_sum h.1 l⟩
  | unweighted off u sl sc =>
    by_cases hm : sl.any (· == l) = true
    · have hmem : l ∈ sl := by simpa using hm
      have hc : sl.count l = 1 := by
        have := List.count_pos_iff.2 hmem
        simp only [litOnce] at h1; omega
      cases u with
      | none => obtain ⟨rfl, _⟩ := h.1 rfl; cases hmem
      | some u => exact ⟨some u, by simp only [litWeight, if_pos hm], by simp [litTotal, hc]⟩
    · have hmem : l ∉ sl := by simpa using hm
      exact ⟨none, by simp only [litWeight, if_neg hm], by simp [litTotal, List.count_eq_zero_of_not_mem hmem]⟩

/-- C21 for `add_soft_clause`: the empty clause increases the offset, a unit clause is a soft literal, and for
other clauses the returned previous weight is replaced. Partial: as for `add_soft_lit`, duplicates in the
unweighted representation make the returned weight differ from the weight of the clause. -/
theorem C21_add_soft_clause_partial (o : Objective) (h : o.WF) (w : Nat) (c : Clause) :
    ∃ old o', o.addSoftClause w c = some (old, o') ∧ o'.WF ∧
      ∀ a, o'.value a = o.value a + if Clause.falsified a c then (w : Int) - (old.getD 0 : Nat) else 0 := by
  by_cases h0 : c = []
  · subst h0
    obtain ⟨h1, h2⟩ := increaseOffset_spec o h w
    exact ⟨none, _, rfl, h1, fun a => by rw [h2]; simp [Clause.falsified]⟩
  by_cases hl : ∃ l, c = [l]
  · obtain ⟨l, rfl⟩ := hl
    obtain ⟨old, o', h1, h2, h3⟩ := C21_add_soft_lit_partial o h w l.neg
    refine ⟨old, o', h1, h2, fun a => ?_⟩
    rw [h3, Lit.holds_neg, Clause.falsified_singleton]
  have hlen : c.length ≠ 1 := fun e => hl (List.length_eq_one_iff.1 e)
  have hdef : o.addSoftClause w c = (match (generalizing := false) o with
    | .weighted off sl sc =>
      if w = 0 then some (HMap.get sc c, .weighted off sl (HMap.remove sc c))
      else some (HMap.get sc c, .weighted off sl (HMap.insert sc c w))
    | .unweighted off u sl sc =>
      if w = 0 then
        match (generalizing := false) sc.findIdx? (· == c) with
        | some i =>
          match (generalizing := false) u with
          | some u => some (some u, .unweighted off (some u) sl (vecSwapRemove sc i))
          | none => none
        | none => some (none, .unweighted off u sl sc)
      else
        match (generalizing := false) u with
        | some u =>
          if w = u then
            if sc.any (· == c) then some (some u, .unweighted off (some u) sl sc)
            else some (none, .unweighted off (some u) sl (sc ++ [c]))
          else
            match (generalizing := false) toWeighted (.unweighted off (some u) sl sc) with
            | .weighted off sl sc => some (HMap.get sc c, .weighted off sl (HMap.insert sc c w))
            | .unweighted .. => none
        | none => some (none, .unweighted off (some w) sl (sc ++ [c]))) := by
    match c, h0, hlen with
    | _ :: _ :: _, _, _ => cases o <;> rfl
  have hsub : ∀ {m : List (Clause × Nat)}, (∀ p ∈ m, p.1.length ≠ 1) → ∀ w, ∀ p ∈ HMap.insert m c w, p.1.length ≠ 1 := by
    intro m hm w p hp
    rcases HMap.mem_insert.1 hp with ⟨hp, _⟩ | rfl
    · exact hm p hp
    · exact hlen
  suffices hs : ∃ old o', o.addSoftClause w c = some (old, o') ∧ o'.WF ∧
      ∀ a, o'.value a + (if Clause.falsified a c then (old.getD 0 : Int) else 0) =
        o.value a + if Clause.falsified a c then (w : Int) else 0 by
    obtain ⟨old, o', h1, h2, h3⟩ := hs
    refine ⟨old, o', h1, h2, fun a => ?_⟩
    have := h3 a
    split at this
    · rw [if_pos (by assumption)]; omega
    · rw [if_neg (by assumption)]; omega
  rw [hdef]
  cases o with
  | weighted off sl sc =>
    have hr := fun a : Asg => HMap.msum_remove (Clause.falsified a) h.2.1 c
    simp only
    by_cases hw : w = 0
    · refine ⟨HMap.get sc c, .weighted off sl (HMap.remove sc c), by rw [if_pos hw],
        ⟨h.1, HMap.nodup_remove h.2.1 _, ?_⟩, fun a => ?_⟩
      · intro p hp; exact h.2.2 p (HMap.mem_remove.1 hp).1
      · simp only [value_weighted, hr a]
        cases Clause.falsified a c <;> simp <;> omega
    · refine ⟨HMap.get sc c, .weighted off sl (HMap.insert sc c w), by rw [if_neg hw],
        ⟨h.1, HMap.nodup_insert h.2.1 _ _, hsub h.2.2 w⟩, fun a => ?_⟩
      simp only [value_weighted, HMap.msum_insert, hr a]
      cases Clause.falsified a c <;> simp <;> omega
  | unweighted off u sl sc =>
    simp only
    by_cases hw : w = 0
    · cases hf : sc.findIdx? (· == c) with
      | none =>
        refine ⟨none, .unweighted off u sl sc, by rw [if_pos hw], h, fun a => ?_⟩
        subst hw; simp
      | some i =>
        obtain ⟨hi, e⟩ := findIdx?_beq hf
        cases u with
        | none => have := (h.1 rfl).2; subst this; simp at hi
        | some u =>
          refine ⟨some u, .unweighted off (some u) sl (vecSwapRemove sc i), by rw [if_pos hw],
            ⟨by simp, fun d hd => h.2 d (mem_vecSwapRemove hd)⟩, fun a => ?_⟩
          have := countP_vecSwapRemove (Clause.falsified a) sc i hi
          rw [e] at this
          simp only [value_unweighted, this, Option.getD_some]
          subst hw
          cases Clause.falsified a c
          · simp
          · simp only [if_true]; simp [Nat.mul_add]; omega
    · cases u with
      | none =>
        obtain ⟨rfl, rfl⟩ := h.1 rfl
        refine ⟨none, .unweighted off (some w) [] ([] ++ [c]), by rw [if_neg hw], ⟨by simp, by simpa using hlen⟩,
          fun a => ?_⟩
        simp only [value_unweighted]
        cases hl : Clause.falsified a c <;> simp [hl]
      | some u =>
        by_cases hu : w = u
        · by_cases hm : sc.any (· == c) = true
          · refine ⟨some u, .unweighted off (some u) sl sc, by rw [if_neg hw]; simp only; rw [if_pos hu, if_pos hm], h, fun a => ?_⟩
            subst hu; simp
          · refine ⟨none, .unweighted off (some u) sl (sc ++ [c]), by rw [if_neg hw]; simp only; rw [if_pos hu, if_neg hm],
              ⟨by simp, ?_⟩, fun a => ?_⟩
            · intro d hd
              rcases List.mem_append.1 hd with hd | hd
              · exact h.2 d hd
              · simp at hd; subst hd; exact hlen
            · subst hu
              simp only [value_unweighted, List.countP_append, List.countP_singleton]
              cases hl : Clause.falsified a c <;> simp [Int.mul_add]; omega
        · obtain ⟨off', sl', sc', h1, h2, h3⟩ := toWeighted_spec _ h
          have hr := fun a : Asg => HMap.msum_remove (Clause.falsified a) h2.2.1 c
          refine ⟨HMap.get sc' c, .weighted off' sl' (HMap.insert sc' c w), by rw [if_neg hw]; simp only; rw [if_neg hu, h1],
            ⟨h2.1, HMap.nodup_insert h2.2.1 _ _, hsub h2.2.2 w⟩, fun a => ?_⟩
          rw [← h3]
          simp only [value_weighted, HMap.msum_insert, hr a]
          cases Clause.falsified a c <;> simp <;> omega

example : (Objective.unweighted 0 (some 1) [x0] [[x0, x1]]).addSoftClause 3 [x0, x1] =
    some (some 1, .weighted 0 [(x0, 1)] [([x0, x1], 3)]) := by decide

/-- C21 is violated by duplicates: after adding weight 1 to `x0` twice its weight is 2, but `lit_weight` says 1,
setting the weight to 0 leaves weight 1, and setting it to 1 leaves weight 2. -/
theorem C21_violated_duplicates :
    let o := (Objective.default.increaseSoftLit 1 x0).increaseSoftLit 1 x0
    o.value (fun _ => true) = 2 ∧ o.litWeight x0 = some (some 1) ∧
    (∃ o', o.addSoftLit 0 x0 = some (some 1, o') ∧ o'.value (fun _ => true) = 1) ∧
    (∃ o', o.addSoftLit 1 x0 = some (some 1, o') ∧ o'.value (fun _ => true) = 2) := by
  refine ⟨by decide, by decide, ⟨.unweighted 0 (some 1) [x0] [], by decide, by decide⟩,
    ⟨.unweighted 0 (some 1) [x0, x0] [], by decide, by decide⟩⟩

/-! ### C22 -/

/-- C22: `into_soft_cls` returns weighted soft clauses and an offset with the same cost for every assignment;
`into_unweighted_soft_cls` returns soft clauses of one weight and an offset. Neither panics. -/
theorem C22_into_soft_cls (o : Objective) (h : o.WF) :
    (∃ cls off, o.intoSoftCls = some (cls, off) ∧ ∀ a, off + clsCost a cls = o.value a) ∧
    (∃ cls u off, o.intoUnweightedSoftCls = some (cls, u, off) ∧
      ∀ a, off + u * (countFalsified a cls : Int) = o.value a) := by
  constructor
  · cases o with
    | unweighted off u sl sc =>
      cases u with
      | none =>
        obtain ⟨rfl, rfl⟩ := h.1 rfl
        exact ⟨[], off, rfl, fun a => by simp [clsCost, value]⟩
      | some u =>
        refine ⟨_, off, rfl, fun a => ?_⟩
        have e1 : ∀ q ∈ (sc ++ sl.map fun l => [l.neg]).map fun c => (c, u), q.2 = u := by
          intro q hq
          obtain ⟨c, _, rfl⟩ := List.mem_map.1 hq
          rfl
        have e2 : ((sc ++ sl.map fun l => [l.neg]).map fun c => (c, u)).map (·.1) = sc ++ sl.map fun l => [l.neg] := by
          rw [List.map_map]; exact List.map_id _
        have e3 : (Clause.falsified a ∘ fun l : Lit => [l.neg]) = fun l => l.holds a := by
          funext l; simp
        rw [clsCost_eq_msum, msum_const _ u _ e1, value_unweighted, e2, List.countP_append, List.countP_map, e3,
          Nat.add_comm (List.countP _ sc)]
        rfl
    | weighted off sl sc =>
      refine ⟨_, off, rfl, fun a => ?_⟩
      obtain ⟨h1, h2, h3⟩ := h
      have key : ∀ (sl : List (Lit × Nat)) (m : List (Clause × Nat)), (sl.map (·.1)).Nodup →
          (∀ p ∈ m, ∀ q ∈ sl, p.1 ≠ [q.1.neg]) →
          clsCost a (sl.foldl (fun m p => HMap.insert m [p.1.neg] p.2) m) = wsum a sl + clsCost a m := by
        intro sl
        induction sl with
        | nil => intro m _ _; simp [wsum]
        | cons p sl ih =>
          intro m hn hm
          obtain ⟨l, w⟩ := p
          simp only [List.map_cons, List.nodup_cons] at hn
          rw [List.foldl_cons, ih _ hn.2]
          · have : HMap.insert m [l.neg] w = m ++ [([l.neg], w)] := by
              rw [HMap.insert, HMap.remove_of_not_mem]
              intro hh
              obtain ⟨p, hp, e⟩ := List.mem_map.1 hh
              exact hm p hp (l, w) (List.mem_cons_self ..) e
            simp only [this, clsCost_eq_msum, msum_append, msum_cons, msum_nil, wsum, Clause.falsified_singleton,
              Lit.holds_neg, Bool.not_not]
            omega
          · intro p hp q hq
            rcases HMap.mem_insert.1 hp with ⟨hp, _⟩ | rfl
            · exact hm p hp q (List.mem_cons_of_mem _ hq)
            · intro e
              have e' : l = q.1 := by
                have : l.neg = q.1.neg := by simpa using e
                rw [← Lit.neg_neg l, this, Lit.neg_neg]
              exact hn.1 (List.mem_map.2 ⟨q, hq, e'.symm⟩)
      rw [key sl sc h1 (fun p hp q _ e => h3 p hp (by rw [e]; rfl)), value]
      omega
  · obtain ⟨off, u, sl, sc, h1, h2, h3⟩ := toUnweighted_spec o h
    cases u with
    | none =>
      obtain ⟨rfl, rfl⟩ := h2.1 rfl
      refine ⟨[], 1, off, by rw [intoUnweightedSoftCls, h1], fun a => ?_⟩
      rw [← h3]; simp [value, countFalsified]
    | some u =>
      refine ⟨_, u, off, by rw [intoUnweightedSoftCls, h1], fun a => ?_⟩
      rw [← h3, value_unweighted, countFalsified_eq_countP, List.countP_append, List.countP_map]
      have : (Clause.falsified a ∘ fun l : Lit => [l.neg]) = fun l => l.holds a := by funext l; simp
      rw [this]
      simp only [Option.getD_some]
      rw [Nat.add_comm]
      simp

example : (Objective.weighted 2 [(x0, 3)] [([x1, x2], 1)]).intoSoftCls =
    some ([([x1, x2], 1), ([x0.neg], 3)], 2) := by decide

section
variable {VM : Type} [ManageVars VM] [LawfulVM VM]

theorem objValue_congr {a b : Asg} (o : Objective) (h : ∀ v, o.hasVar v → a v = b v) :
    o.value a = o.value b := by
  cases o with
  | weighted off sl sc =>
    rw [value_weighted, value_weighted, msum_congr (p := fun l => Lit.holds a l) (q := fun l => Lit.holds b l),
      msum_congr (p := Clause.falsified a) (q := Clause.falsified b)]
    · intro p hp
      exact falsified_congr_vars fun l hl => h l.var (.inr ⟨p, hp, l, hl, rfl⟩)
    · intro p hp
      exact Lit.holds_congr (h _ (.inl ⟨p, hp, rfl⟩))
  | unweighted off u sl sc =>
    rw [value_unweighted, value_unweighted]
    have e1 : sl.countP (fun l => l.holds a) = sl.countP (fun l => l.holds b) :=
      List.countP_congr fun l hl => by rw [Lit.holds_congr (h _ (.inl ⟨l, hl, rfl⟩))]
    have e2 : sc.countP (Clause.falsified a) = sc.countP (Clause.falsified b) :=
      List.countP_congr fun c hc => by
        rw [falsified_congr_vars fun l hl => h l.var (.inr ⟨c, hc, l, hl, rfl⟩)]
    rw [e1, e2]

/-- What a conversion to soft literals has to satisfy: hard clauses `cnf` and a cost function `cost`, using the
variables from `n` to `n'` as new variables. -/
structure RelaxSpec (o : Objective) (n n' : Nat) (cnf : ClauseSet) (cost : Asg → Int) : Prop where
  /-- no extension is cheaper -/
  sound : ∀ b, ClauseSet.sat b cnf → o.value b ≤ cost b
  /-- every assignment can be extended with the same cost, changing only new variables -/
  complete : ∀ a, ∃ b, (∀ v, v < n ∨ n' ≤ v → b v = a v) ∧ ClauseSet.sat b cnf ∧ cost b = o.value a

private theorem convert_spec (o : Objective) (h : o.WF) (vm : VM)
    (hv : ∀ v, o.hasVar v → v < ManageVars.nUsed vm) :
    (o.convertToSoftLits vm).2.1.WF ∧ (o.convertToSoftLits vm).2.1.nClauses = 0 ∧
    ManageVars.nUsed (o.convertToSoftLits vm).2.2 = ManageVars.nUsed vm + o.nClauses ∧
    RelaxSpec o (ManageVars.nUsed vm) (ManageVars.nUsed (o.convertToSoftLits vm).2.2)
      (o.convertToSoftLits vm).1 (fun b => (o.convertToSoftLits vm).2.1.value b) := by
  cases o with
  | weighted off sl sc =>
    obtain ⟨e1, e2, e3⟩ := relaxW_eq sc vm sl [] (fun p hp => hv _ (.inl ⟨p, hp, rfl⟩))
    simp only [convertToSoftLits]
    refine ⟨?_, rfl, e3, ⟨?_, ?_⟩⟩
    · refine ⟨?_, by simp, by simp⟩
      rw [e1, List.map_append, List.nodup_append]
      refine ⟨h.1, nodup_relLits _ _, ?_⟩
      intro x hx y hy e
      obtain ⟨p, hp, rfl⟩ := List.mem_map.1 hx
      obtain ⟨q, hq, rfl⟩ := List.mem_map.1 hy
      have h1 := hv _ (.inl ⟨p, hp, rfl⟩)
      have h2 := (mem_relLits hq).1
      rw [e] at h1; omega
    · intro b hb
      rw [e2, List.nil_append] at hb
      have := rel_sound b sc _ hb
      simp only [value_weighted, e1, msum_append, msum_nil]
      omega
    · intro a
      obtain ⟨b, h1, h2, h3⟩ := rel_complete (ManageVars.nUsed vm) a sc (ManageVars.nUsed vm) (Nat.le_refl _)
        (fun p hp l hl => hv _ (.inr ⟨p, hp, l, hl, rfl⟩))
      refine ⟨b, by rw [e3]; exact h1, by rw [e2, List.nil_append]; exact h2, ?_⟩
      simp only [value_weighted, e1, msum_append, msum_nil, h3]
      rw [msum_congr (p := fun l => Lit.holds b l) (q := fun l => Lit.holds a l) (m := sl)]
      · omega
      · intro p hp
        exact Lit.holds_congr (h1 _ (.inl (hv _ (.inl ⟨p, hp, rfl⟩))))
  | unweighted off u sl sc =>
    obtain ⟨e1, e2, e3⟩ := relaxU_eq sc vm sl [] (u.getD 0)
    simp only [convertToSoftLits]
    have hm : ∀ b : Asg, u.getD 0 * ((relLits (ManageVars.nUsed vm) (sc.map fun c => (c, u.getD 0))).map (·.1)).countP
        (fun l => l.holds b) = msum (fun l => l.holds b) (relLits (ManageVars.nUsed vm) (sc.map fun c => (c, u.getD 0))) := by
      intro b
      rw [msum_const]
      have : ∀ (sc : List Clause) (n : Nat), ∀ q ∈ relLits n (sc.map fun c => (c, u.getD 0)), q.2 = u.getD 0 := by
        intro sc
        induction sc with
        | nil => intro n q hq; cases hq
        | cons c sc ih =>
          intro n q hq
          rw [List.map_cons, relLits] at hq
          rcases List.mem_cons.1 hq with rfl | hq
          · rfl
          · exact ih _ q hq
      exact this sc _
    have hf : ∀ b : Asg, msum (Clause.falsified b) (sc.map fun c => (c, u.getD 0)) =
        u.getD 0 * sc.countP (Clause.falsified b) := by
      intro b
      rw [msum_const _ (u.getD 0) _ (by simp)]
      simp [List.map_map, Function.comp_def]
    refine ⟨?_, rfl, by rw [e3]; rfl, ⟨?_, ?_⟩⟩
    · refine ⟨?_, by simp⟩
      intro hu
      obtain ⟨rfl, rfl⟩ := h.1 hu
      rw [e1]; simp [relLits]
    · intro b hb
      rw [e2, List.nil_append] at hb
      have := rel_sound b _ _ hb
      rw [hf, ← hm] at this
      simp only [value_unweighted, e1, List.countP_append, List.countP_nil, Nat.mul_add]
      omega
    · intro a
      obtain ⟨b, h1, h2, h3⟩ := rel_complete (ManageVars.nUsed vm) a (sc.map fun c => (c, u.getD 0))
        (ManageVars.nUsed vm) (Nat.le_refl _)
        (fun p hp l hl => by
          obtain ⟨c, hc, rfl⟩ := List.mem_map.1 hp
          exact hv _ (.inr ⟨c, hc, l, hl, rfl⟩))
      rw [List.length_map] at h1
      refine ⟨b, by rw [e3]; exact h1, by rw [e2, List.nil_append]; exact h2, ?_⟩
      rw [hf, ← hm] at h3
      have e4 : sl.countP (fun l => l.holds b) = sl.countP (fun l => l.holds a) :=
        List.countP_congr fun l hl => by
          rw [Lit.holds_congr (h1 _ (.inl (hv _ (.inl ⟨l, hl, rfl⟩))))]
      simp only [value_unweighted, e1, List.countP_append, List.countP_nil, Nat.mul_add, h3, e4]
      omega

/-- C22: `convert_to_soft_lits` removes all soft clauses; the minimum cost over all extensions of an assignment
that satisfy the returned clauses is the original cost, only fresh variables (one for each soft clause) are
introduced. Needs: the manager knows the variables of the objective. -/
theorem C22_convert_to_soft_lits (o : Objective) (h : o.WF) (vm : VM)
    (hv : ∀ v, o.hasVar v → v < ManageVars.nUsed vm) :
    (o.convertToSoftLits vm).2.1.WF ∧ (o.convertToSoftLits vm).2.1.nClauses = 0 ∧
    ManageVars.nUsed (o.convertToSoftLits vm).2.2 = ManageVars.nUsed vm + o.nClauses ∧
    RelaxSpec o (ManageVars.nUsed vm) (ManageVars.nUsed (o.convertToSoftLits vm).2.2)
      (o.convertToSoftLits vm).1 (fun b => (o.convertToSoftLits vm).2.1.value b) := convert_spec o h vm hv

/-- C22 for `into_soft_lits`: hard clauses, weighted soft literals, offset. -/
theorem C22_into_soft_lits (o : Objective) (h : o.WF) (vm : VM)
    (hv : ∀ v, o.hasVar v → v < ManageVars.nUsed vm) :
    ManageVars.nUsed (o.intoSoftLits vm).2.2.2 = ManageVars.nUsed vm + o.nClauses ∧
    RelaxSpec o (ManageVars.nUsed vm) (ManageVars.nUsed (o.intoSoftLits vm).2.2.2) (o.intoSoftLits vm).1
      (fun b => (o.intoSoftLits vm).2.2.1 + wsum b (o.intoSoftLits vm).2.1) := by
  obtain ⟨h1, h2, h3, h4⟩ := convert_spec o h vm hv
  obtain ⟨off, sl, sc, e1, e2, e3⟩ := toWeighted_spec _ h1
  have e : o.intoSoftLits vm = ((o.convertToSoftLits vm).1, sl, off, (o.convertToSoftLits vm).2.2) := by
    simp only [intoSoftLits, e1]
  have hsc : sc = [] := by
    generalize (o.convertToSoftLits vm).2.1 = q at h2 e1
    match q with
    | .weighted _ _ [] => simp only [toWeighted] at e1; cases e1; rfl
    | .weighted _ _ (_ :: _) => simp [nClauses] at h2
    | .unweighted _ none _ [] => simp only [toWeighted] at e1; cases e1; rfl
    | .unweighted _ (some _) _ [] => simp only [toWeighted] at e1; cases e1; rfl
    | .unweighted _ _ _ (_ :: _) => simp [nClauses] at h2
  subst hsc
  rw [e]
  refine ⟨h3, ?_⟩
  have : (fun b => off + (wsum b sl : Int)) = fun b => (o.convertToSoftLits vm).2.1.value b := by
    funext b; rw [← e3, value]; simp [clsCost]
  simp only [this]
  exact h4

/-- C22 for `into_unweighted_soft_lits`: hard clauses, soft literals, unit weight, offset. -/
theorem C22_into_unweighted_soft_lits (o : Objective) (h : o.WF) (vm : VM)
    (hv : ∀ v, o.hasVar v → v < ManageVars.nUsed vm) :
    let r := o.intoUnweightedSoftLits vm
    ManageVars.nUsed r.2.2.2.2 = ManageVars.nUsed vm + o.nClauses ∧
    RelaxSpec o (ManageVars.nUsed vm) (ManageVars.nUsed r.2.2.2.2) r.1
      (fun b => r.2.2.2.1 + r.2.2.1 * (countTrue b r.2.1 : Int)) := by
  obtain ⟨h1, h2, h3, h4⟩ := convert_spec o h vm hv
  simp only [intoUnweightedSoftLits]
  cases hq : (o.convertToSoftLits vm).2.1 with
  | weighted off sl sc =>
    have hsc : sc = [] := by rw [hq] at h2; exact List.length_eq_zero_iff.1 h2
    subst hsc
    refine ⟨h3, ?_⟩
    rw [hq] at h4
    have : (fun b => off + ((1 : Nat) : Int) * (countTrue b (sl.foldl (fun v p => v ++ List.replicate p.2 p.1) []) : Int)) =
        fun b => (Objective.weighted off sl []).value b := by
      funext b
      rw [countTrue_eq_countP, foldl_replicate, value_weighted]; simp
    simp only [this]
    exact h4
  | unweighted off u sl sc =>
    have hsc : sc = [] := by rw [hq] at h2; exact List.length_eq_zero_iff.1 h2
    subst hsc
    rw [hq] at h4
    cases u with
    | some u =>
      refine ⟨h3, ?_⟩
      have : (fun b => off + (u : Int) * (countTrue b sl : Int)) =
          fun b => (Objective.unweighted off (some u) sl []).value b := by
        funext b; simp [value, countFalsified]
      simp only [this]
      exact h4
    | none =>
      refine ⟨h3, ⟨fun b _ => ?_, fun a => ⟨a, fun _ _ => rfl, ClauseSet.sat_nil a, ?_⟩⟩⟩
      · -- the objective is a constant
        have : o.value b ≤ off := by
          cases o with
          | weighted => simp [convertToSoftLits] at hq
          | unweighted off' u' sl' sc' =>
            simp only [convertToSoftLits, Objective.unweighted.injEq] at hq
            obtain ⟨e1, e2, _⟩ := hq
            simp [value, e1, e2]
        simpa [countTrue] using this
      · cases o with
        | weighted => simp [convertToSoftLits] at hq
        | unweighted off' u' sl' sc' =>
          simp only [convertToSoftLits, Objective.unweighted.injEq] at hq
          obtain ⟨e1, e2, _⟩ := hq
          simp [value, e1, e2, countTrue]

end

example : (Objective.weighted 2 [(x0, 3)] [([x1, x2], 1)]).convertToSoftLits (BasicVM.mk 5) =
    ([[x1, x2, Lit.pos 5]], .weighted 2 [(x0, 3), (Lit.pos 5, 1)] [], ⟨6⟩) := by decide

/-! ### C23 -/

/-- C23 for weighted objectives: `normalize` keeps the cost of every assignment. Partial: an objective with
non-zero offset whose soft constraints all vanish becomes the empty objective, losing the offset
(`C23_violated_offset`); in that case the original cost was constant. -/
theorem C23_normalize_weighted_partial (off : Int) (sl : List (Lit × Nat)) (sc : List (Clause × Nat))
    (h : (Objective.weighted off sl sc).WF) :
    ∃ o', (Objective.weighted off sl sc).normalize = some o' ∧ o'.WF ∧
      ((∀ a, o'.value a = (Objective.weighted off sl sc).value a) ∨
       (o' = Objective.default ∧ ∃ k, ∀ a, (Objective.weighted off sl sc).value a = k)) := by
  obtain ⟨h1, h2⟩ := normalizeW_spec off sl sc h
  exact ⟨_, rfl, h1, h2⟩

example : (Objective.weighted 2 [(x0, 3), (x1, 1)] [([x0], 1), ([x2], 1)]).normalize =
    some (.weighted 3 [(x1, 1), (x0, 2), (x2.neg, 1)] []) := by decide

/-- C23 for unweighted objectives. Partial: requires at least one soft literal (or unit soft clause) and no two
complementary ones; see `C23_violated_panic` and `C23_violated_complement`. -/
theorem C23_normalize_unweighted_partial (off : Int) (u : Option Nat) (sl : List Lit) (sc : List Clause)
    (h : (Objective.unweighted off u sl sc).WF) (hne : u ≠ none → sl ++ pushedLits sc ≠ [])
    (hcomp : ∀ l ∈ sl ++ pushedLits sc, l.neg ∉ sl ++ pushedLits sc) :
    ∃ o', (Objective.unweighted off u sl sc).normalize = some o' ∧ o'.WF ∧
      ∀ a, o'.value a = (Objective.unweighted off u sl sc).value a := by
  cases u with
  | none => exact ⟨_, rfl, h, fun a => rfl⟩
  | some u =>
    have hv : ∀ (sl' : List Lit) (sc' : List Clause), (sl'.Perm (sl ++ pushedLits sc)) → (sc'.Perm (keptClauses sc)) → ∀ a,
        (Objective.unweighted off (some u) sl' sc').value a = (Objective.unweighted off (some u) sl sc).value a := by
      intro sl' sc' p1 p2 a
      rw [value_unweighted, value_unweighted, p1.countP_eq, p2.countP_eq, pushed_kept a sc, List.countP_append]
      congr 3; omega
    have hk : ∀ sc' : List Clause, (sc'.Perm (keptClauses sc)) → ∀ c ∈ sc', c.length ≠ 1 :=
      fun sc' p c hc => keptClauses_length (p.mem_iff.1 hc)
    have hw : ∀ (sl' : List Lit) (sc' : List Clause), (sl'.Perm (sl ++ pushedLits sc)) → (sc'.Perm (keptClauses sc)) →
        ∃ o', (match toWeighted (.unweighted off (some u) sl' sc') with
          | .weighted off sl sc => some (normalizeW off sl sc)
          | .unweighted .. => none) = some o' ∧ o'.WF ∧
          ∀ a, o'.value a = (Objective.unweighted off (some u) sl sc).value a := by
      intro sl' sc' p1 p2
      have hwf : (Objective.unweighted off (some u) sl' sc').WF := ⟨by simp, hk sc' p2⟩
      obtain ⟨off2, sl2, sc2, e1, e2, e3⟩ := toWeighted_spec _ hwf
      rw [e1]
      obtain ⟨h1, _⟩ := normalizeW_spec off2 sl2 sc2 e2
      refine ⟨_, rfl, h1, fun a => ?_⟩
      simp only [toWeighted, Objective.weighted.injEq] at e1
      obtain ⟨rfl, e4, e5⟩ := e1
      have hsc2 : ∀ p ∈ sc2, ∀ l, Clause.normalize p.1 ≠ some [l] := by
        intro p hp
        rw [← e5] at hp
        rcases mem_foldl_addTo hp with ⟨r, hr, _⟩ | hp
        · cases hr
        · exact keptClauses_normalize (p2.mem_iff.1 hp)
      have hsl2 : sl2 ≠ [] := by
        rw [← e4]
        have hne' : sl' ≠ [] := fun e => hne (by simp) (by rw [e] at p1; exact List.nil_perm.1 p1)
        obtain ⟨init, y, rfl⟩ := (List.eq_nil_or_concat sl').resolve_left hne'
        rw [List.concat_eq_append, List.foldl_append]
        simp [HMap.addTo, HMap.insert]
      obtain ⟨n1, n2⟩ := normFold_spec sc2 (off, sl2, []) ⟨e2.1, by simp, by simp⟩
      have n3 := normFold_keeps sc2 off sl2 [] hsc2
      show (normFinish _ _ _).value a = _
      rw [(normFinish_spec _ _ _ n1).2.2 (.inl (by rw [n3]; exact hsl2)) a, n2 a, ← hv sl' sc' p1 p2, ← e3]
      simp only [value_weighted, msum_nil]
      omega
    simp only [normalize]
    have q1 := isort_perm Lit.le (sl ++ pushedLits sc)
    have q2 := isort_perm Cnf.clauseLe (keptClauses sc)
    by_cases hd : hasAdjDup (isort Cnf.clauseLe (keptClauses sc)) = true
    · rw [if_pos hd]; exact hw _ _ (List.Perm.refl _) q2
    · rw [if_neg hd]
      have hlen : (isort Lit.le (sl ++ pushedLits sc)).length ≠ 0 := by
        rw [q1.length_eq]; intro e; exact hne (by simp) (List.length_eq_zero_iff.1 e)
      rw [if_neg hlen]
      have hc : ∀ l ∈ isort Lit.le (sl ++ pushedLits sc), l.neg ∉ isort Lit.le (sl ++ pushedLits sc) := by
        intro l hl; rw [q1.mem_iff] at hl ⊢; exact hcomp l hl
      rcases litLoop_spec u _ off hc ((isort Lit.le (sl ++ pushedLits sc)).length + 1) 0 (by omega) with e | e
      · rw [e]; exact hw _ _ q1 q2
      · rw [e]
        have hne' : (isort Lit.le (sl ++ pushedLits sc)).isEmpty = false := by
          rw [List.isEmpty_eq_false_iff]; intro e; rw [e] at hlen; exact hlen rfl
        simp only [hne', Bool.false_and, Bool.false_eq_true, if_false]
        exact ⟨_, rfl, ⟨by simp, hk _ q2⟩, hv _ _ q1 q2⟩

example : (Objective.unweighted 0 (some 2) [x1, x0, x1] [[x2]]).normalize =
    some (.weighted 0 [(x0, 2), (x1, 4), (x2.neg, 2)] []) := by decide

/-- C23 is violated: the offset of an objective without soft constraints is lost. -/
theorem C23_violated_offset (a : Asg) :
    (Objective.weighted 5 [] []).value a = 5 ∧
    (Objective.weighted 5 [] []).normalize = some Objective.default ∧ Objective.default.value a = 0 :=
  ⟨by simp [value, wsum, clsCost], by decide, value_default a⟩

/-- C23 is violated: `normalize` panics on an objective with a unit weight but without soft literals, for
example one consisting of a soft clause only, or after the last soft literal has been removed. -/
theorem C23_violated_panic :
    (Objective.unweighted 0 (some 1) [] []).normalize = none ∧
    (∃ o', (Objective.default.increaseSoftLit 1 x0).addSoftLit 0 x0 = some (some 1, o') ∧ o'.normalize = none) ∧
    (Objective.default.increaseSoftClause 1 []).normalize = none :=
  ⟨by decide, ⟨.unweighted 0 (some 1) [] [], by decide, by decide⟩, by decide⟩

/-- C23 is violated by complementary soft literals: for x0, ¬x0, x1 the cost of setting all variables is 2, after
`normalize` the remaining literal is x0 instead of x1; for x0, ¬x0, x1, x1 the pair is counted twice. -/
theorem C23_violated_complement :
    (Objective.unweighted 0 (some 1) [x0, x0.neg, x1] []).normalize = some (.unweighted 1 (some 1) [x0] []) ∧
    (Objective.unweighted 0 (some 1) [x0, x0.neg, x1] []).value (fun v => v == 1) = 2 ∧
    (Objective.unweighted 1 (some 1) [x0] []).value (fun v => v == 1) = 1 ∧
    (Objective.unweighted 0 (some 1) [x0, x0.neg, x1, x1] []).normalize =
      some (.weighted 1 [(x0, 1), (x0.neg, 1), (x1, 2)] []) ∧
    (Objective.unweighted 0 (some 1) [x0, x0.neg, x1, x1] []).value (fun _ => true) = 3 ∧
    (Objective.weighted 1 [(x0, 1), (x0.neg, 1), (x1, 2)] []).value (fun _ => true) = 4 := by decide

/-! ### C20, for objectives -/

private theorem reindexSpec_wlit (base : Nat) :
    ReindexSpec base Objective.reindexWLit (fun g p => (p.1.rename g, p.2)) (fun p => [p.1.var]) := by
  intro m p hi
  obtain ⟨h1, h2, h3, h4⟩ := ReindexVM.reindexLit_spec base m hi p.1
  refine ⟨h1, h2, fun v hv => by rw [List.mem_singleton] at hv; subst hv; exact h3, fun m' he => ?_⟩
  simp only [Objective.reindexWLit, h4 m' he]

private theorem reindexSpec_wcl (base : Nat) :
    ReindexSpec base Objective.reindexWCl (fun g p => (p.1.map (Lit.rename g), p.2)) (fun p => p.1.map Lit.var) := by
  intro m p hi
  obtain ⟨h1, h2, h3, h4⟩ := reindexSpec_lits base m p.1 hi
  refine ⟨h1, h2, h3, fun m' he => ?_⟩
  simp only [Objective.reindexWCl, h4 m' he]

theorem rename_inj {f : Nat → Nat} {k l : Lit} (h : f k.var = f l.var → k.var = l.var)
    (e : k.rename f = l.rename f) : k = l := by
  have h1 := congrArg Lit.var e
  have h2 := congrArg Lit.isNeg e
  simp only [Lit.rename, Lit.var_mk', Lit.isNeg_mk'] at h1 h2
  exact Lit.ext_var (h h1) h2

theorem map_rename_inj {f : Nat → Nat} {c d : Clause}
    (h : ∀ k ∈ c, ∀ l ∈ d, f k.var = f l.var → k.var = l.var)
    (e : c.map (Lit.rename f) = d.map (Lit.rename f)) : c = d := by
  induction c generalizing d with
  | nil => cases d with
    | nil => rfl
    | cons => simp at e
  | cons k c ih =>
    cases d with
    | nil => simp at e
    | cons l d =>
      simp only [List.map_cons, List.cons.injEq] at e
      rw [rename_inj (h k (List.mem_cons_self ..) l (List.mem_cons_self ..)) e.1,
        ih (fun a ha b hb => h a (List.mem_cons_of_mem _ ha) b (List.mem_cons_of_mem _ hb)) e.2]

theorem nodup_map_on {α β : Type} {f : α → β} {l : List α} (h : l.Nodup)
    (hf : ∀ x ∈ l, ∀ y ∈ l, f x = f y → x = y) : (l.map f).Nodup := by
  induction l with
  | nil => simp
  | cons x l ih =>
    rw [List.nodup_cons] at h
    rw [List.map_cons, List.nodup_cons]
    refine ⟨fun hm => ?_, ih h.2 fun a ha b hb => hf a (List.mem_cons_of_mem _ ha) b (List.mem_cons_of_mem _ hb)⟩
    obtain ⟨y, hy, e⟩ := List.mem_map.1 hm
    exact h.1 (hf y (List.mem_cons_of_mem _ hy) x (List.mem_cons_self ..) e ▸ hy)

/-- Renaming an objective. -/
def renameObj (f : Nat → Nat) : Objective → Objective
  | .weighted off sl sc => .weighted off (sl.map fun p => (p.1.rename f, p.2)) (sc.map fun p => (p.1.map (Lit.rename f), p.2))
  | .unweighted off u sl sc => .unweighted off u (sl.map (Lit.rename f)) (sc.map (List.map (Lit.rename f)))

theorem falsified_rename (b : Asg) (f : Nat → Nat) (c : Clause) :
    Clause.falsified b (c.map (Lit.rename f)) = Clause.falsified (fun v => b (f v)) c := by
  simp only [Clause.falsified, List.all_map, Function.comp_def, holds_rename]

theorem value_rename (b : Asg) (f : Nat → Nat) (o : Objective) :
    (renameObj f o).value b = o.value (fun v => b (f v)) := by
  cases o with
  | weighted off sl sc =>
    simp only [renameObj, value_weighted]
    have e1 : ∀ sl : List (Lit × Nat), msum (fun l => l.holds b) (sl.map fun p => (p.1.rename f, p.2)) =
        msum (fun l => l.holds (fun v => b (f v))) sl := by
      intro sl
      induction sl with
      | nil => rfl
      | cons p sl ih => simp only [List.map_cons, msum_cons, ih, holds_rename]
    have e2 : ∀ sc : List (Clause × Nat), msum (Clause.falsified b) (sc.map fun p => (p.1.map (Lit.rename f), p.2)) =
        msum (Clause.falsified (fun v => b (f v))) sc := by
      intro sc
      induction sc with
      | nil => rfl
      | cons p sc ih => simp only [List.map_cons, msum_cons, ih, falsified_rename]
    rw [e1, e2]
  | unweighted off u sl sc =>
    simp only [renameObj, value_unweighted, List.countP_map, Function.comp_def, holds_rename, falsified_rename]

theorem objective_reindex_spec (o : Objective) (h : o.WF) (base : Nat) (m : ReindexVM) (hm : m.Inv base) :
    let r := o.reindex m
    r.1.WF ∧ r.2.Inv base ∧ ReindexVM.Ext m r.2 ∧ (∀ v, o.hasVar v → (r.2.inMap.lookup v).isSome) ∧
    ∀ m' : ReindexVM, ReindexVM.Ext r.2 m' → m'.Inv base → r.1 = renameObj m'.fn o := by
  intro r
  cases o with
  | weighted off sl sc =>
    obtain ⟨a1, a2, a3, a4⟩ := reindexList_spec (reindexSpec_wlit base) m sl hm
    obtain ⟨b1, b2, b3, b4⟩ := reindexList_spec (reindexSpec_wcl base) _ sc a1
    have hsome : ∀ v, (Objective.weighted off sl sc).hasVar v → (r.2.inMap.lookup v).isSome := by
      intro v hv
      rcases hv with ⟨p, hp, rfl⟩ | ⟨p, hp, l, hl, rfl⟩
      · obtain ⟨w, hw⟩ := Option.isSome_iff_exists.1 (a3 p.1.var (List.mem_flatMap.2 ⟨p, hp, by simp⟩))
        exact Option.isSome_iff_exists.2 ⟨w, b2 _ _ hw⟩
      · exact b3 l.var (List.mem_flatMap.2 ⟨p, hp, List.mem_map.2 ⟨l, hl, rfl⟩⟩)
    have hinj : ∀ m' : ReindexVM, ReindexVM.Ext r.2 m' → m'.Inv base → ∀ u v, (Objective.weighted off sl sc).hasVar u →
        (Objective.weighted off sl sc).hasVar v → m'.fn u = m'.fn v → u = v := by
      intro m' he hi u v hu hv e
      obtain ⟨w, hw⟩ := Option.isSome_iff_exists.1 (hsome u hu)
      obtain ⟨x, hx⟩ := Option.isSome_iff_exists.1 (hsome v hv)
      have hw' := he _ _ hw
      have hx' := he _ _ hx
      simp only [ReindexVM.fn, hw', hx', Option.getD_some] at e
      subst e
      exact inv_injective hi hw' hx'
    have key : ∀ m' : ReindexVM, ReindexVM.Ext r.2 m' → m'.Inv base →
        r.1 = renameObj m'.fn (.weighted off sl sc) ∧ (renameObj m'.fn (.weighted off sl sc)).WF := by
      intro m' he hi
      have n1 : ((sl.map fun p => (p.1.rename m'.fn, p.2)).map (·.1)).Nodup := by
        have : (sl.map fun p => (p.1.rename m'.fn, p.2)).map (·.1) = (sl.map (·.1)).map (Lit.rename m'.fn) := by
          simp [List.map_map, Function.comp_def]
        rw [this]
        refine nodup_map_on h.1 fun x hx y hy e => ?_
        obtain ⟨p, hp, rfl⟩ := List.mem_map.1 hx
        obtain ⟨q, hq, rfl⟩ := List.mem_map.1 hy
        exact rename_inj (hinj m' he hi _ _ (.inl ⟨p, hp, rfl⟩) (.inl ⟨q, hq, rfl⟩)) e
      have n2 : ((sc.map fun p => (p.1.map (Lit.rename m'.fn), p.2)).map (·.1)).Nodup := by
        have : (sc.map fun p => (p.1.map (Lit.rename m'.fn), p.2)).map (·.1) =
            (sc.map (·.1)).map (List.map (Lit.rename m'.fn)) := by
          simp [List.map_map, Function.comp_def]
        rw [this]
        refine nodup_map_on h.2.1 fun x hx y hy e => ?_
        obtain ⟨p, hp, rfl⟩ := List.mem_map.1 hx
        obtain ⟨q, hq, rfl⟩ := List.mem_map.1 hy
        exact map_rename_inj (fun k hk l hl =>
          hinj m' he hi _ _ (.inr ⟨p, hp, k, hk, rfl⟩) (.inr ⟨q, hq, l, hl, rfl⟩)) e
      refine ⟨?_, n1, n2, ?_⟩
      · show Objective.weighted off (collectMap _) (collectMap _) = _
        rw [a4 m' (b2.trans he), b4 m' he, collectMap_eq _ n1, collectMap_eq _ n2]
        rfl
      · intro p hp
        obtain ⟨q, hq, rfl⟩ := List.mem_map.1 hp
        simpa using h.2.2 q hq
    refine ⟨?_, b1, a2.trans b2, hsome, fun m' he hi => (key m' he hi).1⟩
    obtain ⟨k1, k2⟩ := key r.2 (ReindexVM.Ext.refl _) b1
    rw [k1]; exact k2
  | unweighted off u sl sc =>
    obtain ⟨a1, a2, a3, a4⟩ := reindexSpec_lits base m sl hm
    obtain ⟨b1, b2, b3, b4⟩ := reindexList_spec (reindexSpec_lits base) _ sc a1
    have hsome : ∀ v, (Objective.unweighted off u sl sc).hasVar v → (r.2.inMap.lookup v).isSome := by
      intro v hv
      rcases hv with ⟨l, hl, rfl⟩ | ⟨c, hc, l, hl, rfl⟩
      · obtain ⟨w, hw⟩ := Option.isSome_iff_exists.1 (a3 l.var (List.mem_map.2 ⟨l, hl, rfl⟩))
        exact Option.isSome_iff_exists.2 ⟨w, b2 _ _ hw⟩
      · exact b3 l.var (List.mem_flatMap.2 ⟨c, hc, List.mem_map.2 ⟨l, hl, rfl⟩⟩)
    have key : ∀ m' : ReindexVM, ReindexVM.Ext r.2 m' → r.1 = renameObj m'.fn (.unweighted off u sl sc) := by
      intro m' he
      show Objective.unweighted off u _ _ = _
      rw [a4 m' (b2.trans he), b4 m' he]
      rfl
    refine ⟨?_, b1, a2.trans b2, hsome, fun m' he _ => key m' he⟩
    rw [key r.2 (ReindexVM.Ext.refl _)]
    refine ⟨fun hu => ?_, ?_⟩
    · obtain ⟨rfl, rfl⟩ := h.1 hu; simp
    · intro c hc
      obtain ⟨d, hd, rfl⟩ := List.mem_map.1 hc
      simpa using h.2 d hd

theorem reindex_fn_of_some {m : ReindexVM} {v : Nat} (h : (m.inMap.lookup v).isSome) :
    m.inMap.lookup v = some (m.fn v) := by
  obtain ⟨w, hw⟩ := Option.isSome_iff_exists.1 h
  simp only [ReindexVM.fn, hw, Option.getD_some]

/-- C20: re-indexing an objective with a new re-indexing manager is renaming by an injective function that the
returned manager remembers; the cost is preserved. -/
theorem C20_reindex_objective (o : Objective) (h : o.WF) (n : Nat) :
    let r := o.reindex (.fromNextFree n)
    r.1.WF ∧ ∃ f : Nat → Nat,
      (∀ v, o.hasVar v → r.2.reverse (f v) = some v ∧ r.2.reindex v = (f v, r.2)) ∧
      (∀ u v, o.hasVar u → o.hasVar v → f u = f v → u = v) ∧
      (∀ b : Asg, r.1.value b = o.value (fun v => b (f v))) := by
  intro r
  obtain ⟨h1, h2, _, h4, h5⟩ := objective_reindex_spec o h n _ (ReindexVM.inv_fromNextFree n)
  refine ⟨h1, r.2.fn, fun v hv => ?_, fun u v hu hv e => ?_, fun b => ?_⟩
  · have := reindex_fn_of_some (h4 v hv)
    refine ⟨(h2.map v _ this).2.2, ?_⟩
    simp only [ReindexVM.reindex, show r.2.inMap.lookup v = some (r.2.fn v) from this]
  · have hu' := reindex_fn_of_some (h4 u hu)
    have hv' := reindex_fn_of_some (h4 v hv)
    exact inv_injective h2 hu' (by rw [hv']; exact congrArg some e.symm)
  · have := h5 r.2 (ReindexVM.Ext.refl _) h2
    rw [show r.1 = _ from this, value_rename]

/-- C20: re-indexing an optimisation instance renames constraints and objective by the same injective
function. -/
theorem C20_reindex_opt_instance {VM : Type} [ManageVars VM] (i : OptInstance VM) (h : i.obj.WF) (n : Nat) :
    let t := i.reindex (.fromNextFree n)
    t.obj.WF ∧ ∃ f : Nat → Nat,
      (∀ v, i.constrs.hasVar v ∨ i.obj.hasVar v →
        t.constrs.vm.reverse (f v) = some v ∧ t.constrs.vm.reindex v = (f v, t.constrs.vm)) ∧
      (∀ b : Asg, (t.constrs.sat b ↔ i.constrs.sat (fun v => b (f v))) ∧
        t.obj.value b = i.obj.value (fun v => b (f v))) := by
  intro t
  obtain ⟨h1, h2, _, h4, h5⟩ := objective_reindex_spec i.obj h n _ (ReindexVM.inv_fromNextFree n)
  obtain ⟨g1, g2, g3, _⟩ := instance_reindex_spec i.constrs n (i.obj.reindex (.fromNextFree n)).2 h2
  obtain ⟨k1, _, k3, _⟩ := instance_reindex_sem i.constrs n (i.obj.reindex (.fromNextFree n)).2 h2
  have ht : t.constrs = i.constrs.reindex (i.obj.reindex (.fromNextFree n)).2 := rfl
  refine ⟨h1, t.constrs.vm.fn, fun v hv => ?_, fun b => ⟨k1 b, ?_⟩⟩
  · rcases hv with hv | hv
    · exact k3 v hv
    · have hl := g2 _ _ (reindex_fn_of_some (h4 v hv))
      have hl' := reindex_fn_of_some (m := t.constrs.vm) (v := v) (by rw [ht, hl]; rfl)
      refine ⟨(g1.map v _ hl').2.2, ?_⟩
      simp only [ReindexVM.reindex, hl']
  · have := h5 t.constrs.vm g2 g1
    rw [show t.obj = _ from this, value_rename]

example : ((Objective.weighted 1 [(x2, 3)] [([x1, x2.neg], 2)]).reindex (.fromNextFree 0)).1 =
    .weighted 1 [(x0, 3)] [([x1, x0.neg], 2)] := by decide

/-! ### C47 -/

/-- `a` assigns all variables of the objective. -/
def Objective.assignedBy (o : Objective) (a : Assignment) : Prop := ∀ v, o.hasVar v → a.varValue v ≠ .dontCare

private theorem clause_evaluate_iff {a : Assignment} {b : Asg} (hb : a.completedBy b) {c : Clause}
    (h : ∀ l ∈ c, a.varValue l.var ≠ .dontCare) : (Clause.evaluate c a = .false) ↔ Clause.falsified b c = true := by
  rw [(C08_evaluate c a).2.1]
  simp only [Clause.falsified, List.all_eq_true, Bool.not_eq_true']
  constructor
  · intro hh l hl; exact holds_of_litValue_false hb (hh l hl)
  · intro hh l hl
    cases hv : a.litValue l with
    | false => rfl
    | true => have := holds_of_litValue_true hb hv; rw [hh l hl] at this; cases this
    | dontCare => exact absurd hv (litValue_ne_dontCare (h l hl))

private theorem litValue_iff {a : Assignment} {b : Asg} (hb : a.completedBy b) {l : Lit}
    (h : a.varValue l.var ≠ .dontCare) : (a.litValue l = .true) ↔ l.holds b = true := by
  constructor
  · exact holds_of_litValue_true hb
  · intro hh
    cases hv : a.litValue l with
    | true => rfl
    | false => have := holds_of_litValue_false hb hv; rw [hh] at this; cases this
    | dontCare => exact absurd hv (litValue_ne_dontCare h)

private theorem foldl_cost {α : Type} (P : α → Prop) [DecidablePred P] (p : α → Bool) (f : α → Nat) (l : List α)
    (h : ∀ x ∈ l, P x ↔ p x = true) (k : Nat) :
    l.foldl (fun c x => if P x then c + f x else c) k = k + (l.map fun x => if p x then f x else 0).sum := by
  induction l generalizing k with
  | nil => simp
  | cons x l ih =>
    rw [List.foldl_cons, ih fun y hy => h y (List.mem_cons_of_mem _ hy)]
    simp only [List.map_cons, List.sum_cons]
    have := h x (List.mem_cons_self ..)
    by_cases hp : P x
    · rw [if_pos hp, if_pos (this.1 hp)]; omega
    · rw [if_neg hp, if_neg (fun e => hp (this.2 e))]; omega

private theorem msum_eq_sum {α : Type} (p : α → Bool) (m : List (α × Nat)) :
    msum p m = (m.map fun x => if p x.1 then x.2 else 0).sum := by
  induction m with
  | nil => rfl
  | cons x m ih => rw [msum_cons, ih, List.map_cons, List.sum_cons]

private theorem countP_eq_sum {α : Type} (p : α → Bool) (m : List α) :
    m.countP p = (m.map fun x => if p x then 1 else 0).sum := by
  induction m with
  | nil => rfl
  | cons x m ih => rw [List.countP_cons, ih, List.map_cons, List.sum_cons]; omega

/-- C47: `Objective::evaluate` on an assignment of all variables of the objective is the cost. -/
theorem C47_objective_evaluate (o : Objective) (a : Assignment) (b : Asg) (hb : a.completedBy b)
    (h : o.assignedBy a) : o.evaluate a = o.value b := by
  cases o with
  | weighted off sl sc =>
    simp only [evaluate, evaluateNoOffset, offset]
    rw [foldl_cost (fun p : Clause × Nat => Clause.evaluate p.1 a = .false) (fun p => Clause.falsified b p.1) (·.2) sc
        (fun p hp => clause_evaluate_iff hb fun l hl => h _ (.inr ⟨p, hp, l, hl, rfl⟩)),
      foldl_cost (fun p : Lit × Nat => a.litValue p.1 = .true) (fun p => p.1.holds b) (·.2) sl
        (fun p hp => litValue_iff hb (h _ (.inl ⟨p, hp, rfl⟩))),
      value_weighted, msum_eq_sum, msum_eq_sum]
    omega
  | unweighted off u sl sc =>
    simp only [evaluate, evaluateNoOffset, offset]
    rw [foldl_cost (fun c : Clause => Clause.evaluate c a = .false) (Clause.falsified b) (fun _ => 1) sc
        (fun c hc => clause_evaluate_iff hb fun l hl => h _ (.inr ⟨c, hc, l, hl, rfl⟩)),
      foldl_cost (fun l : Lit => a.litValue l = .true) (fun l => l.holds b) (fun _ => 1) sl
        (fun l hl => litValue_iff hb (h _ (.inl ⟨l, hl, rfl⟩))),
      value_unweighted, countP_eq_sum, countP_eq_sum, Nat.zero_add]
    cases u with
    | none => simp
    | some u => simp only [Option.getD_some, Nat.mul_comm u]; omega

/-- C47: on an assignment of all variables, `cost` does not panic, it is `Some` exactly if the assignment
satisfies the constraints, and then it is the cost of the assignment; for one and for several objectives. -/
theorem C47_cost {VM : Type} [ManageVars VM] (i : OptInstance VM) (j : MultiOptInstance VM) (a : Assignment) (b : Asg)
    (hb : a.completedBy b)
    (hi : i.constrs.assignedBy a ∧ i.obj.assignedBy a ∧ ∀ c ∈ i.constrs.pbs, notFalseWeight a c.lits ≤ isizeMax)
    (hj : j.constrs.assignedBy a ∧ (∀ o ∈ j.objs, o.assignedBy a) ∧
      ∀ c ∈ j.constrs.pbs, notFalseWeight a c.lits ≤ isizeMax) :
    (i.constrs.sat b → i.cost a = some (some (i.obj.value b))) ∧ (¬ i.constrs.sat b → i.cost a = some none) ∧
    (j.constrs.sat b → j.cost a = some (some (j.objs.map fun o => o.value b))) ∧
    (¬ j.constrs.sat b → j.cost a = some none) := by
  obtain ⟨h1, h2, _⟩ := C49_evaluate_total i.constrs a b hb hi.1 hi.2.2
  obtain ⟨g1, g2, _⟩ := C49_evaluate_total j.constrs a b hb hj.1 hj.2.2
  refine ⟨fun h => ?_, fun h => ?_, fun h => ?_, fun h => ?_⟩
  · simp [OptInstance.cost, h1.2 h, C47_objective_evaluate i.obj a b hb hi.2.1]
  · simp [OptInstance.cost, h2.2 h]
  · simp only [MultiOptInstance.cost, g1.2 h, ne_eq, not_true, if_false, Option.some.injEq]
    exact List.map_congr_left fun o ho => C47_objective_evaluate o a b hb (hj.2.1 o ho)
  · simp [MultiOptInstance.cost, g2.2 h]

/-- C47 on partial assignments: if `cost` is `Some`, every completion of the assignment satisfies the constraints. -/
theorem C47_cost_incomplete {VM : Type} [ManageVars VM] (i : OptInstance VM) (j : MultiOptInstance VM)
    (a : Assignment) (b : Asg) (hb : a.completedBy b)
    (hi : ∀ c ∈ i.constrs.pbs, notFalseWeight a c.lits ≤ isizeMax)
    (hj : ∀ c ∈ j.constrs.pbs, notFalseWeight a c.lits ≤ isizeMax) :
    (∀ k, i.cost a = some (some k) → i.constrs.sat b) ∧ (∀ k, j.cost a = some (some k) → j.constrs.sat b) := by
  constructor
  · intro k hk
    unfold OptInstance.cost at hk
    cases he : i.constrs.evaluate a with
    | none => rw [he] at hk; cases hk
    | some t =>
      rw [he] at hk
      by_cases ht : t = .true
      · subst ht; exact C49_evaluate_sound _ a hi he b hb
      · simp [ht] at hk
  · intro k hk
    unfold MultiOptInstance.cost at hk
    cases he : j.constrs.evaluate a with
    | none => rw [he] at hk; cases hk
    | some t =>
      rw [he] at hk
      by_cases ht : t = .true
      · subst ht; exact C49_evaluate_sound _ a hj he b hb
      · simp [ht] at hk

private theorem foldl_cost_le {α : Type} (P : α → Prop) [DecidablePred P] (p : α → Bool) (f : α → Nat) (l : List α)
    (h : ∀ x ∈ l, P x → p x = true) (k : Nat) :
    l.foldl (fun c x => if P x then c + f x else c) k ≤ k + (l.map fun x => if p x then f x else 0).sum := by
  induction l generalizing k with
  | nil => simp
  | cons x l ih =>
    rw [List.foldl_cons]
    refine Nat.le_trans (ih (fun y hy => h y (List.mem_cons_of_mem _ hy)) _) ?_
    simp only [List.map_cons, List.sum_cons]
    by_cases hp : P x
    · rw [if_pos hp, if_pos (h x (List.mem_cons_self ..) hp)]; omega
    · rw [if_neg hp]; omega

/-- C47 on partial assignments: `Objective::evaluate` is a lower bound on the cost of every completion. -/
theorem C47_objective_lower_bound (o : Objective) (a : Assignment) (b : Asg) (hb : a.completedBy b) :
    o.evaluate a ≤ o.value b := by
  have hc : ∀ c : Clause, Clause.evaluate c a = .false → Clause.falsified b c = true := by
    intro c h
    rw [(C08_evaluate c a).2.1] at h
    simp only [Clause.falsified, List.all_eq_true, Bool.not_eq_true']
    exact fun l hl => holds_of_litValue_false hb (h l hl)
  cases o with
  | weighted off sl sc =>
    simp only [evaluate, evaluateNoOffset, offset]
    have h1 := foldl_cost_le (fun p : Clause × Nat => Clause.evaluate p.1 a = .false)
      (fun p => Clause.falsified b p.1) (·.2) sc (fun p _ => hc p.1)
      (sl.foldl (fun c p => if a.litValue p.1 = .true then c + p.2 else c) 0)
    have h2 := foldl_cost_le (fun p : Lit × Nat => a.litValue p.1 = .true) (fun p => p.1.holds b) (·.2) sl
        (fun p _ => holds_of_litValue_true hb) 0
    rw [value_weighted, msum_eq_sum, msum_eq_sum]
    omega
  | unweighted off u sl sc =>
    simp only [evaluate, evaluateNoOffset, offset]
    have h1 := foldl_cost_le (fun c : Clause => Clause.evaluate c a = .false)
      (Clause.falsified b) (fun _ => 1) sc (fun c _ => hc c)
      (sl.foldl (fun c l => if a.litValue l = .true then c + 1 else c) 0)
    have h2 := foldl_cost_le (fun l : Lit => a.litValue l = .true) (fun l => l.holds b) (fun _ => 1) sl
        (fun l _ => holds_of_litValue_true hb) 0
    rw [value_unweighted, countP_eq_sum, countP_eq_sum]
    cases u with
    | none => simp
    | some u =>
      simp only [Option.getD_some] at h1 h2 ⊢
      rw [Nat.mul_comm u]
      have := Nat.mul_le_mul_right u (Nat.le_trans h1 (Nat.add_le_add_right h2 _))
      rw [Nat.zero_add] at this
      omega

example : (Objective.weighted 1 [(x0, 3)] [([x0, x1.neg], 2)]).evaluate ⟨[.true]⟩ = 4 := by decide

example : (OptInstance.mk (VM := BasicVM) ⟨[[x0, x1]], [], [], ⟨2⟩⟩ (.weighted 1 [(x0, 3)] [([x0, x1.neg], 2)])).cost
    ⟨[.false, .true]⟩ = some (some 3) := by decide

end RustSat
