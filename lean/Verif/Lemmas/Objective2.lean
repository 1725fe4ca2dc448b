import Verif.Lemmas.Objective
/-
Lemmas about relaxation of soft clauses and normalisation of objectives.
-/
namespace RustSat
namespace Objective

/-! ### Relaxation -/

/-- The relaxation literals for soft clauses, starting at variable `n`. -/
def relLits : Nat → List (Clause × Nat) → List (Lit × Nat)
  | _, [] => []
  | n, (_, w) :: sc => (Lit.pos n, w) :: relLits (n + 1) sc
/-- The relaxed clauses. -/
def relCls : Nat → List (Clause × Nat) → ClauseSet
  | _, [] => []
  | n, (c, _) :: sc => (c ++ [Lit.pos n]) :: relCls (n + 1) sc

theorem mem_relLits {n : Nat} {sc : List (Clause × Nat)} {p : Lit × Nat} (h : p ∈ relLits n sc) :
    n ≤ p.1.var ∧ p.1.var < n + sc.length := by
  induction sc generalizing n with
  | nil => cases h
  | cons x sc ih =>
    obtain ⟨c, w⟩ := x
    rw [relLits] at h
    rcases List.mem_cons.1 h with rfl | h
    · simp
    · have := ih h; simp only [List.length_cons]; omega

theorem nodup_relLits (n : Nat) (sc : List (Clause × Nat)) : ((relLits n sc).map (·.1)).Nodup := by
  induction sc generalizing n with
  | nil => simp [relLits]
  | cons x sc ih =>
    obtain ⟨c, w⟩ := x
    rw [relLits, List.map_cons, List.nodup_cons]
    refine ⟨fun h => ?_, ih _⟩
    obtain ⟨p, hp, e⟩ := List.mem_map.1 h
    have := (mem_relLits hp).1
    rw [e] at this
    simp at this; omega

variable {VM : Type} [ManageVars VM] [LawfulVM VM]

theorem relaxW_eq (sc : List (Clause × Nat)) (vm : VM) (sl : List (Lit × Nat)) (cnf : ClauseSet)
    (hsl : ∀ p ∈ sl, p.1.var < ManageVars.nUsed vm) :
    (relaxW vm sl cnf sc).1 = sl ++ relLits (ManageVars.nUsed vm) sc ∧
    (relaxW vm sl cnf sc).2.1 = cnf ++ relCls (ManageVars.nUsed vm) sc ∧
    ManageVars.nUsed (relaxW vm sl cnf sc).2.2 = ManageVars.nUsed vm + sc.length := by
  induction sc generalizing vm sl cnf with
  | nil => simp [relaxW, relLits, relCls]
  | cons x sc ih =>
    obtain ⟨c, w⟩ := x
    have e : HMap.insert sl (Lit.pos (ManageVars.nUsed vm)) w = sl ++ [(Lit.pos (ManageVars.nUsed vm), w)] := by
      rw [HMap.insert, HMap.remove_of_not_mem]
      intro h
      obtain ⟨p, hp, e⟩ := List.mem_map.1 h
      have := hsl p hp
      rw [e] at this; simp at this
    have := ih (ManageVars.newVar vm).2 (sl ++ [(Lit.pos (ManageVars.nUsed vm), w)])
      (cnf ++ [c ++ [Lit.pos (ManageVars.nUsed vm)]]) (by
        intro p hp
        rw [LawfulVM.newVar_snd]
        rcases List.mem_append.1 hp with hp | hp
        · have := hsl p hp; omega
        · simp at hp; subst hp; simp)
    simp only [relaxW, LawfulVM.newVar_fst, e, Cnf.addClause]
    rw [LawfulVM.newVar_snd] at this
    simp only [relLits, relCls, List.length_cons]
    refine ⟨by rw [this.1]; simp, by rw [this.2.1]; simp, by rw [this.2.2]; omega⟩

theorem relaxU_eq (sc : List Clause) (vm : VM) (sl : List Lit) (cnf : ClauseSet) (u : Nat) :
    (relaxU vm sl cnf sc).1 = sl ++ (relLits (ManageVars.nUsed vm) (sc.map fun c => (c, u))).map (·.1) ∧
    (relaxU vm sl cnf sc).2.1 = cnf ++ relCls (ManageVars.nUsed vm) (sc.map fun c => (c, u)) ∧
    ManageVars.nUsed (relaxU vm sl cnf sc).2.2 = ManageVars.nUsed vm + sc.length := by
  induction sc generalizing vm sl cnf with
  | nil => simp [relaxU, relLits, relCls]
  | cons c sc ih =>
    have := ih (ManageVars.newVar vm).2 (sl ++ [Lit.pos (ManageVars.nUsed vm)])
      (cnf ++ [c ++ [Lit.pos (ManageVars.nUsed vm)]])
    simp only [relaxU, LawfulVM.newVar_fst, Cnf.addClause]
    rw [LawfulVM.newVar_snd] at this
    simp only [List.map_cons, relLits, relCls, List.length_cons]
    refine ⟨by rw [this.1]; simp, by rw [this.2.1]; simp, by rw [this.2.2]; omega⟩

omit [ManageVars VM] [LawfulVM VM] in
theorem rel_sound (a : Asg) (sc : List (Clause × Nat)) (n : Nat) (h : ClauseSet.sat a (relCls n sc)) :
    msum (Clause.falsified a) sc ≤ msum (fun l => l.holds a) (relLits n sc) := by
  induction sc generalizing n with
  | nil => simp [relLits]
  | cons x sc ih =>
    obtain ⟨c, w⟩ := x
    simp only [relCls, ClauseSet.sat_cons, Clause.sat_append] at h
    have := ih _ h.2
    simp only [relLits, msum_cons]
    cases hf : Clause.falsified a c with
    | false => simp; omega
    | true =>
      have hp : (Lit.pos n).holds a = true := by
        rcases h.1 with h1 | h1
        · exact absurd h1 ((Clause.falsified_eq a c).1 hf)
        · simpa using h1
      rw [hp]; simp; omega

omit [ManageVars VM] [LawfulVM VM] in
theorem falsified_congr_vars {a b : Asg} {c : Clause} (h : ∀ l ∈ c, a l.var = b l.var) :
    Clause.falsified a c = Clause.falsified b c := by
  unfold Clause.falsified
  rw [Bool.eq_iff_iff]
  simp only [List.all_eq_true]
  constructor
  · intro hh l hl; rw [← Lit.holds_congr (h l hl)]; exact hh l hl
  · intro hh l hl; rw [Lit.holds_congr (h l hl)]; exact hh l hl

omit [ManageVars VM] [LawfulVM VM] in
theorem clause_sat_congr {a b : Asg} {c : Clause} (h : ∀ l ∈ c, a l.var = b l.var) :
    Clause.sat a c ↔ Clause.sat b c := by
  constructor
  · rintro ⟨l, hl, hh⟩; exact ⟨l, hl, by rw [← Lit.holds_congr (h l hl)]; exact hh⟩
  · rintro ⟨l, hl, hh⟩; exact ⟨l, hl, by rw [Lit.holds_congr (h l hl)]; exact hh⟩

omit [ManageVars VM] [LawfulVM VM] in
theorem msum_congr {α : Type} {p q : α → Bool} {m : List (α × Nat)} (h : ∀ x ∈ m, p x.1 = q x.1) :
    msum p m = msum q m := by
  induction m with
  | nil => rfl
  | cons x m ih =>
    rw [msum_cons, msum_cons, ih fun y hy => h y (List.mem_cons_of_mem _ hy), h x (List.mem_cons_self ..)]

omit [ManageVars VM] [LawfulVM VM] in
theorem rel_complete (n0 : Nat) (a : Asg) (sc : List (Clause × Nat)) (n : Nat) (hn : n0 ≤ n)
    (hsc : ∀ p ∈ sc, ∀ l ∈ p.1, l.var < n0) :
    ∃ b, (∀ v, v < n ∨ n + sc.length ≤ v → b v = a v) ∧ ClauseSet.sat b (relCls n sc) ∧
      msum (fun l => l.holds b) (relLits n sc) = msum (Clause.falsified a) sc := by
  induction sc generalizing n with
  | nil => exact ⟨a, fun _ _ => rfl, by simp [relCls], by simp [relLits]⟩
  | cons x sc ih =>
    obtain ⟨c, w⟩ := x
    obtain ⟨b', h1, h2, h3⟩ := ih (n + 1) (by omega) (fun p hp => hsc p (List.mem_cons_of_mem _ hp))
    have hc : ∀ l ∈ c, l.var < n0 := hsc (c, w) (List.mem_cons_self ..)
    let b : Asg := fun v => if v = n then Clause.falsified a c else b' v
    have hbn : b n = Clause.falsified a c := by simp [b]
    have hbo : ∀ v, v ≠ n → b v = b' v := by intro v hv; simp [b, hv]
    refine ⟨b, ?_, ?_, ?_⟩
    · intro v hv
      simp only [List.length_cons] at hv
      rw [hbo v (by omega)]
      exact h1 v (by omega)
    · simp only [relCls, ClauseSet.sat_cons]
      refine ⟨?_, ?_⟩
      · rw [Clause.sat_append]
        cases hf : Clause.falsified a c with
        | true => right; exact ⟨Lit.pos n, by simp, by simp [hbn, hf]⟩
        | false =>
          left
          have : Clause.sat a c := by
            apply Classical.byContradiction
            intro hh
            rw [← Clause.falsified_eq, hf] at hh; cases hh
          rwa [← clause_sat_congr (a := b)]
          at this
          intro l hl
          have := hc l hl
          rw [hbo _ (by omega), h1 _ (by omega)]
      · intro d hd
        have hd' := h2 d hd
        rwa [clause_sat_congr (a := b) (b := b')]
        intro l hl
        apply hbo
        -- variables of the later relaxed clauses
        have : ∀ (sc : List (Clause × Nat)) (m : Nat), (∀ p ∈ sc, ∀ l ∈ p.1, l.var < n0) →
            ∀ d ∈ relCls m sc, ∀ l ∈ d, l.var < n0 ∨ m ≤ l.var := by
          intro sc
          induction sc with
          | nil => intro m _ d hd; cases hd
          | cons x sc ih =>
            obtain ⟨c, w⟩ := x
            intro m hs d hd l hl
            rw [relCls] at hd
            rcases List.mem_cons.1 hd with rfl | hd
            · rcases List.mem_append.1 hl with hl | hl
              · exact .inl (hs (c, w) (List.mem_cons_self ..) l hl)
              · simp at hl; subst hl; simp
            · have := ih (m + 1) (fun p hp => hs p (List.mem_cons_of_mem _ hp)) d hd l hl
              omega
        have := this sc (n + 1) (fun p hp => hsc p (List.mem_cons_of_mem _ hp)) d hd l hl
        omega
    · simp only [relLits, msum_cons, Lit.holds_pos, hbn]
      rw [← h3, msum_congr (p := fun l => Lit.holds b l) (q := fun l => Lit.holds b' l)]
      intro x hx
      apply Lit.holds_congr
      apply hbo
      have := (mem_relLits hx).1; omega

/-! ### Normalisation -/

omit [ManageVars VM] [LawfulVM VM] in
theorem normStep_spec (off : Int) (sl : List (Lit × Nat)) (sc : List (Clause × Nat)) (p : Clause × Nat)
    (h : (Objective.weighted off sl sc).WF) :
    let st := normStep (off, sl, sc) p
    (Objective.weighted st.1 st.2.1 st.2.2).WF ∧
    ∀ a, (Objective.weighted st.1 st.2.1 st.2.2).value a =
      (Objective.weighted off sl sc).value a + if Clause.falsified a p.1 then p.2 else 0 := by
  intro st
  have hst : st = normStep (off, sl, sc) p := rfl
  unfold normStep at hst
  simp only at hst
  have hn := fun a => Clause.sat_normalize a p.1
  cases hc : Clause.normalize p.1 with
  | none =>
    rw [hc] at hst hn
    rw [hst]
    refine ⟨h, fun a => ?_⟩
    have : Clause.falsified a p.1 = false := by
      cases hf : Clause.falsified a p.1 with
      | false => rfl
      | true => exact absurd (hn a) ((Clause.falsified_eq a p.1).1 hf)
    rw [this]; simp
  | some c =>
    rw [hc] at hst hn
    have hf : ∀ a, Clause.falsified a p.1 = Clause.falsified a c := fun a => Clause.falsified_congr (hn a).symm
    by_cases hl : ∃ l, c = [l]
    · obtain ⟨l, rfl⟩ := hl
      simp only at hst
      simp only [hf, Clause.falsified_singleton]
      cases hg : HMap.get sl l with
      | none =>
        rw [hg] at hst
        rw [hst]
        refine ⟨⟨HMap.nodup_addTo h.1 _ _, h.2⟩, fun a => ?_⟩
        simp only [value_weighted, HMap.msum_addTo _ h.1, Lit.holds_neg]
        split <;> omega
      | some nw =>
        rw [hg] at hst
        have hrem := fun a : Asg => HMap.msum_remove (fun l => Lit.holds a l) h.1 l
        simp only [hg, Option.getD_some] at hrem
        simp only at hst
        by_cases h1 : nw < p.2
        · rw [if_pos h1] at hst
          rw [hst]
          refine ⟨⟨HMap.nodup_addTo (HMap.nodup_remove h.1 _) _ _, h.2⟩, fun a => ?_⟩
          simp only [value_weighted, HMap.msum_addTo _ (HMap.nodup_remove h.1 _), Lit.holds_neg, hrem a]
          cases l.holds a <;> simp <;> omega
        · rw [if_neg h1] at hst
          by_cases h2 : nw = p.2
          · rw [if_pos h2] at hst
            rw [hst]
            refine ⟨⟨HMap.nodup_remove h.1 _, h.2⟩, fun a => ?_⟩
            simp only [value_weighted, hrem a]
            cases l.holds a <;> simp <;> omega
          · rw [if_neg h2] at hst
            rw [hst]
            refine ⟨⟨HMap.nodup_insert h.1 _ _, h.2⟩, fun a => ?_⟩
            simp only [value_weighted, HMap.msum_insert, hrem a]
            cases l.holds a <;> simp <;> omega
    · have hlen : c.length ≠ 1 := fun e => hl (List.length_eq_one_iff.1 e)
      have hst' : st = (off, sl, HMap.addTo sc c p.2) := by
        rw [hst]
        match c, hlen with
        | [], _ => rfl
        | _ :: _ :: _, _ => rfl
      rw [hst']
      refine ⟨⟨h.1, HMap.nodup_addTo h.2.1 _ _, ?_⟩, fun a => ?_⟩
      · intro q hq
        rcases HMap.mem_insert.1 hq with ⟨hq, _⟩ | rfl
        · exact h.2.2 q hq
        · exact hlen
      · simp only [value_weighted, HMap.msum_addTo _ h.2.1, hf]
        split <;> omega

omit [ManageVars VM] [LawfulVM VM] in
theorem normFold_spec (ps : List (Clause × Nat)) (st : Int × List (Lit × Nat) × List (Clause × Nat))
    (h : (Objective.weighted st.1 st.2.1 st.2.2).WF) :
    let st' := ps.foldl normStep st
    (Objective.weighted st'.1 st'.2.1 st'.2.2).WF ∧
    ∀ a, (Objective.weighted st'.1 st'.2.1 st'.2.2).value a =
      (Objective.weighted st.1 st.2.1 st.2.2).value a + msum (Clause.falsified a) ps := by
  induction ps generalizing st with
  | nil => exact ⟨h, fun a => by simp⟩
  | cons p ps ih =>
    obtain ⟨off, sl, sc⟩ := st
    obtain ⟨h1, h2⟩ := normStep_spec off sl sc p h
    obtain ⟨h3, h4⟩ := ih _ h1
    refine ⟨h3, fun a => ?_⟩
    simp only [List.foldl_cons, h4, h2, msum_cons]
    split <;> omega

/-- What normalisation may do: keep the value everywhere, or replace a constant objective by the empty
objective. -/
def Preserved (o o' : Objective) : Prop :=
  (∀ a, o'.value a = o.value a) ∨ (o' = default ∧ ∃ k, ∀ a, o.value a = k)

omit [ManageVars VM] [LawfulVM VM] in
theorem normFinish_spec (off : Int) (sl : List (Lit × Nat)) (sc : List (Clause × Nat))
    (h : (Objective.weighted off sl sc).WF) :
    (normFinish off sl sc).WF ∧ Preserved (.weighted off sl sc) (normFinish off sl sc) ∧
    ((sl ≠ [] ∨ sc ≠ [] ∨ off = 0) → ∀ a, (normFinish off sl sc).value a = (Objective.weighted off sl sc).value a) := by
  unfold normFinish
  cases hh : (sl.map (·.2) ++ sc.map (·.2)).head? with
  | none =>
    rw [List.head?_eq_none_iff, List.append_eq_nil_iff, List.map_eq_nil_iff, List.map_eq_nil_iff] at hh
    obtain ⟨rfl, rfl⟩ := hh
    refine ⟨by simp [default, WF], .inr ⟨rfl, off, fun a => by simp [value_weighted]⟩, ?_⟩
    rintro (h | h | rfl)
    · exact absurd rfl h
    · exact absurd rfl h
    · intro a; simp [default, value, clsCost, wsum, countTrue, countFalsified]
  | some u =>
    simp only
    by_cases hall : (sl.all (fun p => p.2 == u) && sc.all (fun p => p.2 == u)) = true
    · rw [if_pos hall]
      simp only [Bool.and_eq_true, List.all_eq_true, beq_iff_eq] at hall
      have hv : ∀ a, (Objective.unweighted off (some u) (isort Lit.le (sl.map (·.1)))
          (isort Cnf.clauseLe (sc.map (·.1)))).value a = (Objective.weighted off sl sc).value a := by
        intro a
        rw [value_unweighted, value_weighted, (isort_perm _ _).countP_eq, (isort_perm _ _).countP_eq,
          msum_const _ u sl hall.1, msum_const _ u sc hall.2]
        simp only [Option.getD_some, Nat.mul_add]
        omega
      refine ⟨⟨by simp, ?_⟩, .inl hv, fun _ => hv⟩
      intro c hc
      rw [(isort_perm _ _).mem_iff] at hc
      obtain ⟨q, hq, rfl⟩ := List.mem_map.1 hc
      exact h.2.2 q hq
    · rw [if_neg hall]; exact ⟨h, .inl fun a => rfl, fun _ a => rfl⟩

omit [ManageVars VM] [LawfulVM VM] in
theorem normalizeW_spec (off : Int) (sl : List (Lit × Nat)) (sc : List (Clause × Nat))
    (h : (Objective.weighted off sl sc).WF) :
    (normalizeW off sl sc).WF ∧ Preserved (.weighted off sl sc) (normalizeW off sl sc) := by
  obtain ⟨h1, h2⟩ := normFold_spec sc (off, sl, []) ⟨h.1, by simp, by simp⟩
  have hv : ∀ a, (Objective.weighted (sc.foldl normStep (off, sl, [])).1 (sc.foldl normStep (off, sl, [])).2.1
      (sc.foldl normStep (off, sl, [])).2.2).value a = (Objective.weighted off sl sc).value a := by
    intro a; rw [h2]; simp only [value_weighted, msum_nil]; omega
  obtain ⟨h3, h4, _⟩ := normFinish_spec _ _ _ h1
  refine ⟨h3, ?_⟩
  rcases h4 with h4 | ⟨h4, k, h5⟩
  · exact .inl fun a => by rw [← hv a]; exact h4 a
  · exact .inr ⟨h4, k, fun a => by rw [← hv a]; exact h5 a⟩

omit [ManageVars VM] [LawfulVM VM] in
theorem vecSwap_self (v : List Lit) (i : Nat) : vecSwap v i i = v := by
  unfold vecSwap
  cases h : v[i]? with
  | none => rfl
  | some x =>
    simp only [List.set_set]
    obtain ⟨hi, e⟩ := List.getElem?_eq_some_iff.1 h
    rw [← e]; exact List.set_getElem_self hi

omit [ManageVars VM] [LawfulVM VM] in
theorem litLoop_spec (u : Nat) (v : List Lit) (off : Int) (hc : ∀ l ∈ v, l.neg ∉ v) (fuel next : Nat)
    (hn : next + 1 ≤ v.length) :
    litLoop u fuel v next next off = .dup v off ∨ litLoop u fuel v next next off = .done v off := by
  induction fuel generalizing next with
  | zero => exact .inr rfl
  | succ fuel ih =>
    rw [litLoop]
    by_cases h : next < v.length - 1
    · rw [if_pos h]
      have h1 : v[next]? = some v[next] := List.getElem?_eq_getElem _
      have h2 : v[next + 1]? = some (v[next + 1]'(by omega)) := List.getElem?_eq_getElem _
      rw [h1, h2]
      simp only
      rw [if_neg]
      · split
        · exact .inl rfl
        · rw [vecSwap_self]; exact ih (next + 1) (by omega)
      · intro e
        apply hc (v[next + 1]'(by omega)) (List.getElem_mem _)
        rw [← e]; exact List.getElem_mem _
    · rw [if_neg h]
      right
      have e : next + (if next < v.length then 1 else 0) = v.length := by split <;> omega
      rw [e, List.take_length]

omit [ManageVars VM] [LawfulVM VM] in
theorem pushed_kept (a : Asg) (sc : List Clause) :
    sc.countP (Clause.falsified a) =
      (pushedLits sc).countP (fun l => l.holds a) + (keptClauses sc).countP (Clause.falsified a) := by
  induction sc with
  | nil => simp [pushedLits, keptClauses]
  | cons c sc ih =>
    have hn := Clause.sat_normalize a c
    cases hc : Clause.normalize c with
    | none =>
      rw [hc] at hn
      have hf : Clause.falsified a c = false := by
        cases hf : Clause.falsified a c with
        | false => rfl
        | true => exact absurd hn ((Clause.falsified_eq a c).1 hf)
      have e1 : pushedLits (c :: sc) = pushedLits sc := by simp [pushedLits, hc]
      have e2 : keptClauses (c :: sc) = keptClauses sc := by simp [keptClauses, hc]
      rw [List.countP_cons, hf, e1, e2, ih]; simp
    | some d =>
      rw [hc] at hn
      have hf : Clause.falsified a c = Clause.falsified a d := Clause.falsified_congr hn.symm
      by_cases hl : ∃ l, d = [l]
      · obtain ⟨l, rfl⟩ := hl
        have e1 : pushedLits (c :: sc) = l.neg :: pushedLits sc := by simp [pushedLits, hc]
        have e2 : keptClauses (c :: sc) = keptClauses sc := by simp [keptClauses, hc]
        rw [List.countP_cons, hf, e1, e2, ih, List.countP_cons, Clause.falsified_singleton, Lit.holds_neg]; omega
      · have hlen : d.length ≠ 1 := fun e => hl (List.length_eq_one_iff.1 e)
        have e1 : pushedLits (c :: sc) = pushedLits sc := by
          rw [pushedLits, List.filterMap_cons_some hc, List.flatMap_cons, pushedLits]
          clear hc hn hf hl
          match d, hlen with
          | [], _ => rfl
          | _ :: _ :: _, _ => rfl
        have e2 : keptClauses (c :: sc) = d :: keptClauses sc := by simp [keptClauses, hc, hlen]
        rw [List.countP_cons, hf, e1, e2, ih, List.countP_cons]; omega

omit [ManageVars VM] [LawfulVM VM] in
theorem keptClauses_length {sc : List Clause} {c : Clause} (h : c ∈ keptClauses sc) : c.length ≠ 1 := by
  have := (List.mem_filter.1 h).2
  simpa using this

theorem normFold_keeps (ps : List (Clause × Nat)) (off : Int) (sl : List (Lit × Nat)) (sc : List (Clause × Nat))
    (h : ∀ p ∈ ps, ∀ l, Clause.normalize p.1 ≠ some [l]) :
    (ps.foldl normStep (off, sl, sc)).2.1 = sl := by
  induction ps generalizing sc with
  | nil => rfl
  | cons p ps ih =>
    have : ∃ sc', normStep (off, sl, sc) p = (off, sl, sc') := by
      unfold normStep
      have hp := h p (List.mem_cons_self ..)
      cases hc : Clause.normalize p.1 with
      | none => exact ⟨sc, rfl⟩
      | some c =>
        rw [hc] at hp
        match c, hp with
        | [], _ => exact ⟨_, rfl⟩
        | [l], hp => exact absurd rfl (hp l)
        | _ :: _ :: _, _ => exact ⟨_, rfl⟩
    obtain ⟨sc', e⟩ := this
    rw [List.foldl_cons, e]
    exact ih sc' fun q hq => h q (List.mem_cons_of_mem _ hq)

theorem keptClauses_normalize {sc : List Clause} {c : Clause} (h : c ∈ keptClauses sc) (l : Lit) :
    Clause.normalize c ≠ some [l] := by
  intro hn
  have hlen := keptClauses_length h
  obtain ⟨d, _, hd⟩ := List.mem_filterMap.1 (List.mem_filter.1 h).1
  rcases Clause.normalize_spec d with ⟨e, _⟩ | ⟨c', e, _, hs, _⟩
  · rw [e] at hd; cases hd
  · rw [e] at hd; cases hd
    rcases Clause.normalize_spec c with ⟨e', _⟩ | ⟨d', e', _, _, hm⟩
    · rw [e'] at hn; cases hn
    · rw [e'] at hn; cases hn
      have hall : ∀ k ∈ c, k = l := fun k hk => by simpa using (hm k).2 hk
      have hl : l ∈ c := (hm l).1 (by simp)
      match c, hs, hall, hlen, hl with
      | [_], _, _, hlen, _ => exact hlen rfl
      | x :: y :: c, hs, hall, _, _ =>
        have := List.rel_of_pairwise_cons hs (List.mem_cons_self ..)
        rw [hall x (by simp), hall y (by simp)] at this
        omega

end Objective
end RustSat
