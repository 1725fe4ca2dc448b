import Verif.Lemmas.Gbmo2
import Verif.Props.Converters
import Mathlib.Tactic.Linarith
/-
C82: `gbmosplit` splits an objective into objectives whose lexicographic optima are the optima of the objective.
-/
namespace RustSat
open Gbmo GbmoSpec

/-! ### Objectives that are read are proper -/

/-- The invariant of objectives built by increasing weights. -/
private def Grown : Objective → Prop
  | .weighted _ sl sc => (∀ p ∈ sl, 0 < p.2) ∧ (∀ p ∈ sc, 0 < p.2) ∧ (sl ≠ [] ∨ sc ≠ [])
  | .unweighted _ u _ _ => u ≠ some 0

private theorem Grown.proper {o : Objective} (h : Grown o) (hw : o.WF) : Proper o := by
  cases o with
  | weighted off sl sc =>
    refine ⟨fun p hp => ?_, fun off' sl' sc' e => ?_⟩
    · rcases List.mem_append.1 (show p ∈ sl.map (fun p => ([p.1.neg], p.2)) ++ sc from hp) with hp | hp
      · obtain ⟨q, hq, rfl⟩ := List.mem_map.1 hp
        exact h.1 q hq
      · exact h.2.1 p hp
    · show sl.map (fun p => ([p.1.neg], p.2)) ++ sc ≠ []
      intro e
      obtain ⟨e1, e2⟩ := List.append_eq_nil_iff.1 e
      rcases h.2.2 with h | h
      · exact h (List.map_eq_nil_iff.1 e1)
      · exact h e2
  | unweighted off u sl sc =>
    refine ⟨fun p hp => ?_, fun _ _ _ e => by cases e⟩
    have hu : 0 < u.getD 0 := by
      cases u with
      | none =>
        obtain ⟨rfl, rfl⟩ := hw.1 rfl
        cases hp
      | some u =>
        have : u ≠ 0 := fun e => h (by rw [e])
        exact Nat.pos_of_ne_zero this
    rcases List.mem_append.1 (show p ∈ sl.map (fun l => ([l.neg], u.getD 0)) ++ sc.map (fun c => (c, u.getD 0)) from hp) with hp | hp
    · obtain ⟨q, _, rfl⟩ := List.mem_map.1 hp
      exact hu
    · obtain ⟨q, _, rfl⟩ := List.mem_map.1 hp
      exact hu

private theorem addTo_pos {α : Type} [DecidableEq α] {m : List (α × Nat)} (h : ∀ p ∈ m, 0 < p.2) (k : α) {w : Nat} (hw : 0 < w) :
    (∀ p ∈ HMap.addTo m k w, 0 < p.2) ∧ HMap.addTo m k w ≠ [] := by
  refine ⟨fun p hp => ?_, by simp [HMap.addTo, HMap.insert]⟩
  rcases HMap.mem_insert.1 hp with hp | rfl
  · exact h p hp.1
  · show 0 < (HMap.get m k).getD 0 + w
    omega

private theorem foldl_addTo_pos {α : Type} [DecidableEq α] {u : Nat} (hu : 0 < u) (l : List α) {m : List (α × Nat)}
    (h : ∀ p ∈ m, 0 < p.2) : ∀ p ∈ l.foldl (fun m k => HMap.addTo m k u) m, 0 < p.2 := by
  induction l generalizing m with
  | nil => exact h
  | cons x l ih => exact ih (addTo_pos h x hu).1

private theorem grown_lit {o : Objective} (h : Grown o) (w : Nat) (l : Lit) : Grown (o.increaseSoftLit w l) := by
  rw [Objective.increaseSoftLit.eq_def]
  by_cases h0 : w = 0
  · rw [if_pos h0]; exact h
  · rw [if_neg h0]
    have hw : 0 < w := Nat.pos_of_ne_zero h0
    cases o with
    | weighted off sl sc => exact ⟨(addTo_pos h.1 l hw).1, h.2.1, .inl (addTo_pos h.1 l hw).2⟩
    | unweighted off u sl sc =>
      cases u with
      | none => exact fun e => h0 (by injection e)
      | some u =>
        simp only
        by_cases hu : w = u
        · rw [if_pos hu]; exact h
        · rw [if_neg hu]
          have hp : 0 < u := Nat.pos_of_ne_zero fun e => h (by rw [e])
          have h1 := foldl_addTo_pos (α := Lit) hp sl (m := []) (by simp)
          have h2 := foldl_addTo_pos (α := Clause) hp sc (m := []) (by simp)
          exact ⟨(addTo_pos h1 l hw).1, h2, .inl (addTo_pos h1 l hw).2⟩

private theorem grown_clause {o : Objective} (h : Grown o) (w : Nat) (c : Clause) : Grown (o.increaseSoftClause w c) := by
  rw [Objective.increaseSoftClause.eq_def]
  by_cases h0 : w = 0
  · rw [if_pos h0]; exact h
  · rw [if_neg h0]
    have hw : 0 < w := Nat.pos_of_ne_zero h0
    cases o with
    | weighted off sl sc =>
      rcases c with _ | ⟨l, _ | ⟨k, c⟩⟩
      · exact ⟨h.1, (addTo_pos h.2.1 _ hw).1, .inr (addTo_pos h.2.1 _ hw).2⟩
      · exact grown_lit h w l.neg
      · exact ⟨h.1, (addTo_pos h.2.1 _ hw).1, .inr (addTo_pos h.2.1 _ hw).2⟩
    | unweighted off u sl sc =>
      cases u with
      | none =>
        rcases c with _ | ⟨l, _ | ⟨k, c⟩⟩
        · exact fun e => h0 (by injection e)
        · exact grown_lit h w l.neg
        · exact fun e => h0 (by injection e)
      | some u =>
        have hp : 0 < u := Nat.pos_of_ne_zero fun e => h (by rw [e])
        have h1 := foldl_addTo_pos (α := Lit) hp sl (m := []) (by simp)
        have h2 := foldl_addTo_pos (α := Clause) hp sc (m := []) (by simp)
        have key : ∀ c : Clause, Grown (if w = u then .unweighted off (some u) sl (sc ++ [c])
            else .weighted off (sl.foldl (fun m k => HMap.addTo m k u) [])
              (HMap.addTo (sc.foldl (fun m k => HMap.addTo m k u) []) c w)) := by
          intro c
          by_cases hu : w = u
          · rw [if_pos hu]; exact h
          · rw [if_neg hu]
            exact ⟨h1, (addTo_pos h2 c hw).1, .inr (addTo_pos h2 c hw).2⟩
        rcases c with _ | ⟨l, _ | ⟨k, c⟩⟩
        · exact key []
        · exact grown_lit h w l.neg
        · exact key (l :: k :: c)

private theorem grown_offset {o : Objective} (h : Grown o) (i : Int) : Grown (o.increaseOffset i) := by
  cases o <;> exact h

private theorem grown_default : Grown Objective.default := by intro h; cases h

/-- C82: all objectives that are built by increasing weights and offsets meet the conditions of the theorems below. -/
theorem C82_history (ops : List ObjectiveOp) :
    (ops.foldl ObjectiveOp.apply Objective.default).WF ∧ Proper (ops.foldl ObjectiveOp.apply Objective.default) := by
  have hg : ∀ (ops : List ObjectiveOp) (o : Objective), Grown o → Grown (ops.foldl ObjectiveOp.apply o) := by
    intro ops
    induction ops with
    | nil => intro o h; exact h
    | cons op ops ih =>
      intro o h
      refine ih _ ?_
      cases op with
      | lit w l => exact grown_lit h w l
      | litInt w l =>
        show Grown (o.increaseSoftLitInt w l)
        rw [Objective.increaseSoftLitInt]
        split
        · exact grown_lit (grown_offset h _) _ _
        · exact grown_lit h _ _
      | clause w c => exact grown_clause h w c
      | offset i => exact grown_offset h i
  have hw := (C21_history ops fun _ => false).1
  exact ⟨hw, (hg ops _ grown_default).proper hw⟩

example := C82_history [.clause 5 [Lit.mk' 0 false], .clause 1 [Lit.mk' 1 false, Lit.mk' 2 true], .offset 3]

theorem toObjective_ok {o : Opb.Obj} {ob : Objective} (h : o.toObjective = .ok ob) : ob.WF ∧ Grown ob ∧ ob.nClauses = 0 := by
  have key : ∀ (ls : List (Lit × Nat)) (o : Objective), o.WF → Grown o → o.nClauses = 0 →
      (ls.foldl (fun o p => o.increaseSoftLit p.2 p.1) o).WF ∧ Grown (ls.foldl (fun o p => o.increaseSoftLit p.2 p.1) o) ∧
      (ls.foldl (fun o p => o.increaseSoftLit p.2 p.1) o).nClauses = 0 := by
    intro ls
    induction ls with
    | nil => intro o h1 h2 h3; exact ⟨h1, h2, h3⟩
    | cons p ls ih =>
      intro o h1 h2 h3
      refine ih _ (Objective.increaseSoftLit_spec o h1 p.2 p.1).1 (grown_lit h2 _ _) ?_
      show (o.increaseSoftLit p.2 p.1).nClauses = 0
      rw [Objective.increaseSoftLit.eq_def]
      split
      · exact h3
      · cases o with
        | weighted off sl sc => exact h3
        | unweighted off u sl sc =>
          have : sc = [] := List.length_eq_zero_iff.1 h3
          subst this
          cases u with
          | none => rfl
          | some u => simp only; split <;> rfl
  have fin : ∀ (ls : List (Lit × Nat)) (i : Int), ((Objective.ofLits ls).increaseOffset i).WF ∧
      Grown ((Objective.ofLits ls).increaseOffset i) ∧ ((Objective.ofLits ls).increaseOffset i).nClauses = 0 := by
    intro ls i
    obtain ⟨h1, h2, h3⟩ := key ls Objective.default (by simp [Objective.default, Objective.WF]) grown_default rfl
    refine ⟨(Objective.increaseOffset_spec _ h1 i).1, grown_offset h2 i, ?_⟩
    have : ∀ o : Objective, o.nClauses = 0 → (o.increaseOffset i).nClauses = 0 := by intro o h; cases o <;> exact h
    exact this _ h3
  rw [Opb.Obj.toObjective] at h
  cases hs : o.sense with
  | minimize =>
    rw [hs] at h
    injection h with h
    rw [← h]
    exact fin _ _
  | maximize =>
    rw [hs] at h
    simp only at h
    split at h
    · cases h
    · split at h
      · cases h
      · split at h
        · injection h with h
          rw [← h]
          exact fin _ _
        · cases h

private theorem readOpb_obj {opts : Opb.Options} {t : Text} {i : OptInstance BasicVM} (h : OptInstance.fromOpb ⟨0⟩ opts t = .ok i) :
    i.obj.WF ∧ Grown i.obj ∧ i.obj.nClauses = 0 := by
  have key : ∀ (rs : List (Res FioError Opb.Data)) (s : SatInstance BasicVM) (o : Option Opb.Obj) (i : OptInstance BasicVM),
      OptInstance.opbLoop s o rs = .ok i → i.obj.WF ∧ Grown i.obj ∧ i.obj.nClauses = 0 := by
    intro rs
    induction rs with
    | nil =>
      intro s o i h
      cases o with
      | none => cases h
      | some o =>
        simp only [OptInstance.opbLoop] at h
        cases ho : o.toObjective with
        | ok ob =>
          rw [ho] at h
          injection h with h
          rw [← h]
          exact toObjective_ok ho
        | err e => rw [ho] at h; cases h
        | panic => rw [ho] at h; cases h
    | cons r rs ih =>
      intro s o i h
      cases r with
      | ok d =>
        cases d with
        | cmt _ => exact ih s o i h
        | constr c => exact ih _ o i h
        | obj o' =>
          rw [OptInstance.opbLoop] at h
          by_cases ho : o.isSome
          · rw [if_pos ho] at h; cases h
          · rw [if_neg ho] at h; exact ih s _ i h
      | err e => cases h
      | panic => cases h
  exact key _ _ none i h

private theorem readWcnf_grown {t : Text} {i : OptInstance BasicVM} (h : OptInstance.fromDimacs ⟨0⟩ t = .ok i) : Grown i.obj := by
  have key : ∀ (ds : List Dimacs.WcnfData) (p : SatInstance BasicVM × Objective), Grown p.2 →
      Grown (ds.foldl OptInstance.addWcnfData p).2 := by
    intro ds
    induction ds with
    | nil => intro p h; exact h
    | cons d ds ih =>
      intro p h
      refine ih _ ?_
      cases d with
      | comment _ => exact h
      | hard c => exact h
      | soft w c => exact grown_clause h w c
  rw [OptInstance.fromDimacs] at h
  simp only at h
  split at h
  · cases h
  · injection h with h
    rw [← h]
    exact grown_default
  · split at h
    · split at h
      · cases h
      · injection h with h
        rw [← h]
        exact key _ _ grown_default
    · cases h
  · split at h
    · cases h
    · injection h with h
      rw [← h]
      exact key _ _ grown_default

/-- C82: so do all objectives that the tool reads. -/
theorem C82_reads {f : InFormat} {opts : Opb.Options} {t : Text} {i : OptInstance BasicVM} (h : parseInstance f opts t = .ok i) :
    i.constrs.Known ∧ i.obj.WF ∧ Proper i.obj ∧ (f = .opb → i.obj.nClauses = 0) := by
  cases f with
  | wcnf =>
    obtain ⟨h1, _, _, h2⟩ := readWcnf_known h
    exact ⟨h1, h2, (readWcnf_grown h).proper h2, fun e => by cases e⟩
  | opb =>
    obtain ⟨h1, h2, h3⟩ := readOpb_obj h
    exact ⟨readOpbOpt_known h, h1, h2.proper h1, fun _ => h3⟩

/-! ### The split -/

/-- What `split` computes. -/
private theorem split_levels (alg : SplitAlg) (maxCombs : Nat) {o : Objective} (hw : o.WF) (hp : Proper o)
    (ho : ∃ off sl sc, o = .weighted off sl sc) :
    ∃ l ends r, l.Perm (softs o) ∧ l ≠ [] ∧ Ascending l ∧ (∀ p ∈ l, 0 < p.2) ∧ EndsSpec alg maxCombs l ends ∧
      splitObjective alg maxCombs o = some r ∧ All2 LevelOk (slices l 0 ends) r ∧
      (∃ ps q, r = ps ++ [q] ∧ (∀ p ∈ ps, p.1.offset = 0) ∧ q.1.offset = o.offset) ∧ ∀ p ∈ r, 0 < p.2.multiplier := by
  obtain ⟨off, sl, sc, rfl⟩ := ho
  obtain ⟨l, ends, h1, h2, h3, h4, h5, h6, h7⟩ := splitObjective_weighted alg maxCombs hw hp
  have hf : (slices l 0 ends).flatten = l := by rw [slices_flatten h6.ok, List.drop_zero]
  have hne := slices_nonempty h6.ok
  have hall := levels_ok hne (by rw [hf]; exact h4) (by rw [hf]; exact h5) off
  refine ⟨l, ends, _, h1, h2, h3, h5, h6, h7, hall, setLast_offsets (fun p hq => ?_) (fun e => ?_), fun p hq => ?_⟩
  · obtain ⟨L, hL, rfl⟩ := List.mem_map.1 hq
    refine (levelObj_ok (hne L hL) ?_ fun p hp => h5 p (mem_slices hL p hp)).2
    have : L.Sublist l := by
      conv_rhs => rw [← hf]
      exact List.sublist_flatten_of_mem hL
    exact List.Nodup.sublist (this.map _) h4
  · have := congrArg List.length e
    rw [List.length_map, length_slices] at this
    simp at this
  · obtain ⟨L, hL, hk⟩ := hall.mem_right hq
    exact hk.mult_pos (hne L hL) fun p hp => h5 p (mem_slices hL p hp)

private theorem scale_one (l : List (Clause × Nat)) : scale 1 l = l := by
  simp [scale]

private theorem split_cases (o : Objective) : (∃ off sl sc, o = .weighted off sl sc) ∨
    ∃ off u sl sc, o = .unweighted off u sl sc := by
  cases o with
  | weighted off sl sc => exact .inl ⟨off, sl, sc, rfl⟩
  | unweighted off u sl sc => exact .inr ⟨off, u, sl, sc, rfl⟩

private theorem split_unweighted (alg : SplitAlg) (maxCombs : Nat) {o : Objective} (ho : ∃ off u sl sc, o = .unweighted off u sl sc) :
    splitObjective alg maxCombs o = some [(o, objStats o 1)] := by
  obtain ⟨off, u, sl, sc, rfl⟩ := ho; rfl

/-- C82: splitting never panics. The soft constraints of the objectives, with their weights multiplied by the multipliers,
are those of the original objective, and the offset is that of the most important objective. -/
theorem C82_softs (alg : SplitAlg) (maxCombs : Nat) {o : Objective} (hw : o.WF) (hp : Proper o) :
    ∃ r, splitObjective alg maxCombs o = some r ∧ (∀ p ∈ r, p.1.WF ∧ 0 < p.2.multiplier) ∧
      (r.flatMap fun p => scale p.2.multiplier (softs p.1)).Perm (softs o) ∧
      ∃ ps q, r = ps ++ [q] ∧ (∀ p ∈ ps, p.1.offset = 0) ∧ q.1.offset = o.offset := by
  rcases split_cases o with ho | ho
  · obtain ⟨l, ends, r, h1, h2, h3, h4, h5, h6, h7, h8, h9⟩ := split_levels alg maxCombs hw hp ho
    refine ⟨r, h6, fun p hp => ⟨?_, h9 p hp⟩, (scale_flatten h7).trans ?_, h8⟩
    · obtain ⟨L, _, hk⟩ := h7.mem_right hp
      exact hk.wf
    · rw [slices_flatten h5.ok, List.drop_zero]; exact h1
  · refine ⟨_, split_unweighted alg maxCombs ho, fun p h => ?_, ?_, [], (o, objStats o 1), rfl, fun _ h => (by cases h), rfl⟩
    · rw [List.mem_singleton] at h
      subst h
      exact ⟨hw, Nat.one_pos⟩
    · rw [List.flatMap_cons, List.flatMap_nil, List.append_nil]
      show (scale 1 (softs o)).Perm _
      rw [scale_one]

/-- C82: the value of the objective is the offset plus the values of the objectives without their offsets, multiplied by the
multipliers. `_partial`: the offset must be treated separately, see `C82_violated_offset`. -/
theorem C82_value_partial {alg : SplitAlg} {maxCombs : Nat} {o : Objective} (hw : o.WF) (hp : Proper o)
    {r : List (Objective × ObjStats)} (hr : splitObjective alg maxCombs o = some r) (a : Asg) :
    o.value a = o.offset + (r.map fun p => (p.2.multiplier : Int) * (p.1.value a - p.1.offset)).sum := by
  rcases split_cases o with ho | ho
  · obtain ⟨l, ends, r', h1, h2, h3, h4, h5, h6, h7, h8, h9⟩ := split_levels alg maxCombs hw hp ho
    rw [hr] at h6
    injection h6 with h6
    subst h6
    have h := objValue_last h7 a
    rw [slices_flatten h5.ok, List.drop_zero, Gbmo.clsCost_perm a h1] at h
    have h' : (clsCost a o.iterSoftCls : Int) = _ := h
    rw [DimacsSpec.iterSoftCls_cost] at h'
    omega
  · rw [split_unweighted alg maxCombs ho] at hr
    injection hr with hr
    subst hr
    show _ = o.offset + ((1 : Int) * (o.value a - o.offset) + 0)
    omega

/-- C82: comparing solutions lexicographically, starting with the last objective, is the same as comparing their costs. -/
theorem C82_order {alg : SplitAlg} {maxCombs : Nat} {o : Objective} (hw : o.WF) (hp : Proper o)
    {r : List (Objective × ObjStats)} (hr : splitObjective alg maxCombs o = some r) (a b : Asg) :
    LexLt (r.map Prod.fst) a b ↔ o.value a < o.value b := by
  rcases split_cases o with ho | ho
  · obtain ⟨l, ends, r', h1, h2, h3, h4, h5, h6, h7, h8, h9⟩ := split_levels alg maxCombs hw hp ho
    rw [hr] at h6
    injection h6 with h6
    subst h6
    rw [← partLt_iff h7 h9]
    have hsep := slices_sep h5.sep h5.ok (fun e he => he) (fun i hi => .inr hi) (.inl rfl)
    have hlt := cost_lt_iff a b _ _ hsep 0 0 (Nat.zero_le _) (Nat.zero_le _)
    rw [slices_flatten h5.ok, List.drop_zero, Gbmo.clsCost_perm a h1, Gbmo.clsCost_perm b h1] at hlt
    have ha := DimacsSpec.iterSoftCls_cost o a
    have hb := DimacsSpec.iterSoftCls_cost o b
    have hs : ∀ a, clsCost a (softs o) = clsCost a o.iterSoftCls := fun _ => rfl
    rw [hs, hs] at hlt
    constructor
    · intro h
      have := hlt.2 (.inl h)
      omega
    · intro h
      rcases hlt.1 (by omega) with h | h
      · exact h
      · exact absurd h.2 (Nat.lt_irrefl _)
  · rw [split_unweighted alg maxCombs ho] at hr
    injection hr with hr
    subst hr
    rw [List.map_cons, List.map_nil, lexLt_cons]
    constructor
    · rintro (⟨j, h, _⟩ | h)
      · simp [DimacsSpec.objValue] at h
      · exact h.2
    · intro h
      exact .inr ⟨fun k => by simp [DimacsSpec.objValue], h⟩

/-- C82: the weights of each of the objectives have no common divisor. -/
theorem C82_normalized {alg : SplitAlg} {maxCombs : Nat} {off : Int} {sl : List (Lit × Nat)} {sc : List (Clause × Nat)}
    (hw : (Objective.weighted off sl sc).WF) (hp : Proper (.weighted off sl sc)) {r : List (Objective × ObjStats)}
    (hr : splitObjective alg maxCombs (.weighted off sl sc) = some r) : ∀ p ∈ r, listGcd (weights (softs p.1)) = 1 := by
  obtain ⟨l, ends, r', h1, h2, h3, h4, h5, h6, h7, h8, h9⟩ := split_levels alg maxCombs hw hp ⟨off, sl, sc, rfl⟩
  rw [hr] at h6
  injection h6 with h6
  subst h6
  intro p hp
  obtain ⟨L, _, hk⟩ := h7.mem_right hp
  rw [show listGcd (weights (softs p.1)) = weightGcd (softs p.1) from listGcd_wts _]
  exact hk.unit

/-! ### Where it splits -/

private theorem cutAt_congr {P Q : Nat → Prop} {ws : List Nat} {parts : List (List Nat)} (h : CutAt P ws parts)
    (hpq : ∀ i, i + 1 < ws.length → (P i ↔ Q i)) : CutAt Q ws parts :=
  ⟨h.1, h.2.1, fun i hi => (hpq i hi).symm.trans (h.2.2 i hi)⟩

/-- C82: the objective is split at the documented positions of its weights in ascending order: for `bmo`, where the weight
increases, if each weight is larger than the sum of the smaller ones; for `gcd`, where the greatest common divisor of the larger
weights is larger than the sum of the smaller ones; for `gbmo`, wherever that is possible, given that the limit for
combinations is large enough. -/
theorem C82_cuts {alg : SplitAlg} {maxCombs : Nat} {off : Int} {sl : List (Lit × Nat)} {sc : List (Clause × Nat)}
    (hw : (Objective.weighted off sl sc).WF) (hp : Proper (.weighted off sl sc)) {r : List (Objective × ObjStats)}
    (hr : splitObjective alg maxCombs (.weighted off sl sc) = some r) {ws : List Nat} (ha : ws.Pairwise (· ≤ ·))
    (hws : ws.Perm (weights (softs (.weighted off sl sc)))) (hm : alg = .gbmo → 2 ^ ws.length ≤ maxCombs) :
    ∃ parts, CutAt (IsCut alg ws) ws parts ∧ HasParts r parts := by
  obtain ⟨l, ends, r', h1, h2, h3, h4, h5, h6, h7, h8, h9⟩ := split_levels alg maxCombs hw hp ⟨off, sl, sc, rfl⟩
  rw [hr] at h6
  injection h6 with h6
  subst h6
  have e : ws = wts l := ascending_unique ha h3 (hws.trans (h1.map Prod.snd).symm)
  subst e
  refine ⟨_, cutAt_congr (parts_cutAt h5.ok) fun i hi => ⟨h5.sound i, fun hc => h5.complete (fun e => ?_) i ?_ hc⟩, hasParts_of h7⟩
  · have := hm e
    rwa [length_wts] at this
  · rwa [length_wts] at hi

/-- C82: with any limit, `gbmo` splits only where the parts do not interfere, and at least where `gcd` does. -/
theorem C82_cuts_limited {maxCombs : Nat} {off : Int} {sl : List (Lit × Nat)} {sc : List (Clause × Nat)}
    (hw : (Objective.weighted off sl sc).WF) (hp : Proper (.weighted off sl sc)) {r : List (Objective × ObjStats)}
    (hr : splitObjective .gbmo maxCombs (.weighted off sl sc) = some r) {ws : List Nat} (ha : ws.Pairwise (· ≤ ·))
    (hws : ws.Perm (weights (softs (.weighted off sl sc)))) :
    ∃ parts cut, CutAt cut ws parts ∧ HasParts r parts ∧ (∀ i, cut i → IsCut .gbmo ws i) ∧
      ∀ i, i + 1 < ws.length → IsCut .gcd ws i → cut i := by
  obtain ⟨l, ends, r', h1, h2, h3, h4, h5, h6, h7, h8, h9⟩ := split_levels .gbmo maxCombs hw hp ⟨off, sl, sc, rfl⟩
  rw [hr] at h6
  injection h6 with h6
  subst h6
  have e : ws = wts l := ascending_unique ha h3 (hws.trans (h1.map Prod.snd).symm)
  subst e
  exact ⟨_, (· ∈ ends), parts_cutAt h5.ok, hasParts_of h7, h5.sound, fun i hi hc => h5.gcd rfl i (by rwa [length_wts] at hi) hc⟩

/-! ### The optimum -/

/-- C82: the lexicographic optima of the split instance are the optima of the instance. -/
theorem C82_optimum {alg : SplitAlg} {maxCombs : Nat} {i : OptInstance BasicVM} (hw : i.obj.WF) (hp : Proper i.obj) :
    ∃ mo stats, split alg maxCombs i = some (mo, stats) ∧ mo.objs ≠ [] ∧ stats.length = mo.objs.length ∧
      ∀ a, LexOptimal mo a ↔ Optimal i a := by
  obtain ⟨r, h1, h2, h3, ps, q, h4, _⟩ := C82_softs alg maxCombs hw hp
  have e : split alg maxCombs i = some (MultiOptInstance.compose i.decompose.1 (r.map Prod.fst), r.map Prod.snd) := by
    have : splitObjective alg maxCombs i.decompose.2 = some r := h1
    simp only [split, this]
  refine ⟨_, _, e, fun h => ?_, ?_, fun a => ?_⟩
  · have := List.map_eq_nil_iff.1 (show r.map Prod.fst = [] from h)
    rw [h4] at this
    simp at this
  · show (r.map Prod.snd).length = (r.map Prod.fst).length
    rw [List.length_map, List.length_map]
  · constructor
    · rintro ⟨h5, h6⟩
      refine ⟨h5, fun b hb => Int.not_lt.1 fun hlt => h6 b hb ?_⟩
      exact (C82_order hw hp h1 b a).2 hlt
    · rintro ⟨h5, h6⟩
      refine ⟨h5, fun b hb hlt => ?_⟩
      exact Int.not_lt.2 (h6 b hb) ((C82_order hw hp h1 b a).1 hlt)

/-! ### The statistics -/

private theorem fold_max (l : List (Clause × Nat)) (k : Nat) :
    k ≤ l.foldl (fun s p => if p.2 > s then p.2 else s) k ∧ (∀ p ∈ l, p.2 ≤ l.foldl (fun s p => if p.2 > s then p.2 else s) k) ∧
    (l.foldl (fun s p => if p.2 > s then p.2 else s) k = k ∨ ∃ p ∈ l, l.foldl (fun s p => if p.2 > s then p.2 else s) k = p.2) := by
  induction l generalizing k with
  | nil => simp
  | cons p l ih =>
    rw [List.foldl_cons]
    by_cases h : p.2 > k
    · rw [if_pos h]
      obtain ⟨h1, h2, h3⟩ := ih p.2
      refine ⟨by omega, fun q hq => ?_, .inr ?_⟩
      · rcases List.mem_cons.1 hq with rfl | hq
        · exact h1
        · exact h2 q hq
      · rcases h3 with h3 | ⟨q, hq, h3⟩
        · exact ⟨p, List.mem_cons_self .., h3⟩
        · exact ⟨q, List.mem_cons_of_mem _ hq, h3⟩
    · rw [if_neg h]
      obtain ⟨h1, h2, h3⟩ := ih k
      refine ⟨h1, fun q hq => ?_, h3.imp id fun ⟨q, hq, h3⟩ => ⟨q, List.mem_cons_of_mem _ hq, h3⟩⟩
      rcases List.mem_cons.1 hq with rfl | hq
      · omega
      · exact h2 q hq

private theorem fold_min (l : List (Clause × Nat)) (k : Nat) :
    l.foldl (fun s p => if p.2 < s then p.2 else s) k ≤ k ∧ (∀ p ∈ l, l.foldl (fun s p => if p.2 < s then p.2 else s) k ≤ p.2) ∧
    (l.foldl (fun s p => if p.2 < s then p.2 else s) k = k ∨ ∃ p ∈ l, l.foldl (fun s p => if p.2 < s then p.2 else s) k = p.2) := by
  induction l generalizing k with
  | nil => simp
  | cons p l ih =>
    rw [List.foldl_cons]
    by_cases h : p.2 < k
    · rw [if_pos h]
      obtain ⟨h1, h2, h3⟩ := ih p.2
      refine ⟨by omega, fun q hq => ?_, .inr ?_⟩
      · rcases List.mem_cons.1 hq with rfl | hq
        · exact h1
        · exact h2 q hq
      · rcases h3 with h3 | ⟨q, hq, h3⟩
        · exact ⟨p, List.mem_cons_self .., h3⟩
        · exact ⟨q, List.mem_cons_of_mem _ hq, h3⟩
    · rw [if_neg h]
      obtain ⟨h1, h2, h3⟩ := ih k
      refine ⟨h1, fun q hq => ?_, h3.imp id fun ⟨q, hq, h3⟩ => ⟨q, List.mem_cons_of_mem _ hq, h3⟩⟩
      rcases List.mem_cons.1 hq with rfl | hq
      · omega
      · exact h2 q hq

private theorem fold_units {β : Type} (f : β → Nat → β) (l : List (Lit × Nat)) (b : β) :
    l.foldl (fun s p => f s p.2) b = (l.map fun p => (([p.1.neg], p.2) : Clause × Nat)).foldl (fun s p => f s p.2) b := by
  rw [List.foldl_map]

private theorem sum_snd (l : List (Clause × Nat)) : l.foldl (fun s p => s + p.2) 0 = (weights l).sum := by
  rw [sndSum_foldl, Nat.zero_add]; rfl

private theorem stats_of (o : Objective) :
    o.nSofts = (softs o).length ∧ o.weightSum = (weights (softs o)).sum ∧
    (softs o ≠ [] → (∀ w ∈ weights (softs o), w ≤ usizeMax) →
      (o.maxWeight ∈ weights (softs o) ∧ ∀ w ∈ weights (softs o), w ≤ o.maxWeight) ∧
      (o.minWeight ∈ weights (softs o) ∧ ∀ w ∈ weights (softs o), o.minWeight ≤ w)) := by
  cases o with
  | weighted off sl sc =>
    have hs : softs (.weighted off sl sc) = sl.map (fun p => (([p.1.neg], p.2) : Clause × Nat)) ++ sc := rfl
    refine ⟨?_, ?_, fun hne hle => ?_⟩
    · rw [hs, List.length_append, List.length_map]; rfl
    · rw [hs, weights, List.map_append, List.sum_append]
      have h1 : (Objective.weighted off sl sc).litWeightSum = _ := fold_units (fun s w => s + w) sl 0
      have h2 : (Objective.weighted off sl sc).clauseWeightSum = _ := sum_snd sc
      rw [Objective.weightSum, h1, h2, sum_snd]
      rfl
    · have hmem : ∀ w, w ∈ weights (softs (.weighted off sl sc)) ↔
          (∃ p ∈ sl.map (fun p => (([p.1.neg], p.2) : Clause × Nat)), p.2 = w) ∨ ∃ p ∈ sc, p.2 = w := by
        intro w
        rw [hs, weights, List.map_append, List.mem_append, List.mem_map, List.mem_map]
      have m1 := fold_max (sl.map fun p => (([p.1.neg], p.2) : Clause × Nat)) 0
      rw [← fold_units (fun s w => if w > s then w else s)] at m1
      have m2 := fold_max sc 0
      have n1 := fold_min (sl.map fun p => (([p.1.neg], p.2) : Clause × Nat)) usizeMax
      rw [← fold_units (fun s w => if w < s then w else s)] at n1
      have n2 := fold_min sc usizeMax
      change 0 ≤ (Objective.weighted off sl sc).maxLitWeight ∧ (∀ p ∈ sl.map (fun p => (([p.1.neg], p.2) : Clause × Nat)), p.2 ≤ (Objective.weighted off sl sc).maxLitWeight) ∧
        ((Objective.weighted off sl sc).maxLitWeight = 0 ∨ ∃ p ∈ sl.map (fun p => (([p.1.neg], p.2) : Clause × Nat)), (Objective.weighted off sl sc).maxLitWeight = p.2) at m1
      change 0 ≤ (Objective.weighted off sl sc).maxClauseWeight ∧ (∀ p ∈ sc, p.2 ≤ (Objective.weighted off sl sc).maxClauseWeight) ∧
        ((Objective.weighted off sl sc).maxClauseWeight = 0 ∨ ∃ p ∈ sc, (Objective.weighted off sl sc).maxClauseWeight = p.2) at m2
      change (Objective.weighted off sl sc).minLitWeight ≤ usizeMax ∧ (∀ p ∈ sl.map (fun p => (([p.1.neg], p.2) : Clause × Nat)), (Objective.weighted off sl sc).minLitWeight ≤ p.2) ∧
        ((Objective.weighted off sl sc).minLitWeight = usizeMax ∨ ∃ p ∈ sl.map (fun p => (([p.1.neg], p.2) : Clause × Nat)), (Objective.weighted off sl sc).minLitWeight = p.2) at n1
      change (Objective.weighted off sl sc).minClauseWeight ≤ usizeMax ∧ (∀ p ∈ sc, (Objective.weighted off sl sc).minClauseWeight ≤ p.2) ∧
        ((Objective.weighted off sl sc).minClauseWeight = usizeMax ∨ ∃ p ∈ sc, (Objective.weighted off sl sc).minClauseWeight = p.2) at n2
      have hmax : ∀ w ∈ weights (softs (.weighted off sl sc)), w ≤ (Objective.weighted off sl sc).maxWeight := by
        intro w hw
        rw [Objective.maxWeight]
        rcases (hmem w).1 hw with ⟨p, hp, rfl⟩ | ⟨p, hp, rfl⟩
        · have := m1.2.1 p hp; omega
        · have := m2.2.1 p hp; omega
      have hmin : ∀ w ∈ weights (softs (.weighted off sl sc)), (Objective.weighted off sl sc).minWeight ≤ w := by
        intro w hw
        rw [Objective.minWeight]
        rcases (hmem w).1 hw with ⟨p, hp, rfl⟩ | ⟨p, hp, rfl⟩
        · have := n1.2.1 p hp; omega
        · have := n2.2.1 p hp; omega
      obtain ⟨p0, hp0⟩ := List.exists_mem_of_ne_nil _ hne
      have hw0 : p0.2 ∈ weights (softs (.weighted off sl sc)) := List.mem_map_of_mem hp0
      have hb1 := hmax _ hw0
      have hb2 := hmin _ hw0
      have hb3 := hle _ hw0
      refine ⟨⟨?_, hmax⟩, ?_, hmin⟩
      · by_cases hz : (Objective.weighted off sl sc).maxWeight = 0
        · have : p0.2 = (Objective.weighted off sl sc).maxWeight := by omega
          rwa [← this]
        · rw [hmem]
          rw [Objective.maxWeight] at hz ⊢
          rcases m1.2.2 with e1 | ⟨p, hp, e1⟩ <;> rcases m2.2.2 with e2 | ⟨q, hq, e2⟩
          · omega
          · exact .inr ⟨q, hq, by omega⟩
          · exact .inl ⟨p, hp, by omega⟩
          · by_cases hpq : p.2 ≤ q.2
            · exact .inr ⟨q, hq, by omega⟩
            · exact .inl ⟨p, hp, by omega⟩
      · by_cases hz : (Objective.weighted off sl sc).minWeight = usizeMax
        · have : p0.2 = (Objective.weighted off sl sc).minWeight := by omega
          rwa [← this]
        · rw [hmem]
          rw [Objective.minWeight] at hz ⊢
          rcases n1.2.2 with e1 | ⟨p, hp, e1⟩ <;> rcases n2.2.2 with e2 | ⟨q, hq, e2⟩
          · omega
          · exact .inr ⟨q, hq, by omega⟩
          · exact .inl ⟨p, hp, by omega⟩
          · by_cases hpq : p.2 ≤ q.2
            · exact .inl ⟨p, hp, by omega⟩
            · exact .inr ⟨q, hq, by omega⟩
  | unweighted off u sl sc =>
    have hw : weights (softs (.unweighted off u sl sc)) = List.replicate (sl.length + sc.length) (u.getD 0) := by
      show (sl.map (fun l => (([l.neg], u.getD 0) : Clause × Nat)) ++ sc.map fun c => (c, u.getD 0)).map Prod.snd = _
      rw [List.map_append, List.map_map, List.map_map, List.replicate_add]
      congr 1
      · exact List.map_const' ..
      · exact List.map_const' ..
    refine ⟨?_, ?_, fun hne _ => ?_⟩
    · have := congrArg List.length hw
      rw [weights, List.length_map, List.length_replicate] at this
      exact this.symm
    · rw [hw, List.sum_replicate_nat, Nat.add_mul]; rfl
    · have hpos : sl.length + sc.length ≠ 0 := fun h => by
        rw [h] at hw
        exact hne (List.map_eq_nil_iff.1 hw)
      have h1 : (Objective.unweighted off u sl sc).maxWeight = u.getD 0 := Nat.max_self _
      have h2 : (Objective.unweighted off u sl sc).minWeight = u.getD 0 := Nat.min_self _
      rw [hw, h1, h2]
      have hm : u.getD 0 ∈ List.replicate (sl.length + sc.length) (u.getD 0) := List.mem_replicate.2 ⟨hpos, rfl⟩
      exact ⟨⟨hm, fun w h => Nat.le_of_eq (List.mem_replicate.1 h).2⟩, hm, fun w h => Nat.le_of_eq (List.mem_replicate.1 h).2.symm⟩

/-- C82: the statistics are those of the objectives. -/
theorem C82_stats {alg : SplitAlg} {maxCombs : Nat} {o : Objective} (hw : o.WF) (hp : Proper o)
    {r : List (Objective × ObjStats)} (hr : splitObjective alg maxCombs o = some r) {p : Objective × ObjStats} (h : p ∈ r) :
    p.2.nSofts = (softs p.1).length ∧ p.2.weightSum = (weights (softs p.1)).sum ∧
    (softs p.1 ≠ [] → (∀ w ∈ weights (softs p.1), w ≤ usizeMax) →
      (p.2.maxWeight ∈ weights (softs p.1) ∧ ∀ w ∈ weights (softs p.1), w ≤ p.2.maxWeight) ∧
      (p.2.minWeight ∈ weights (softs p.1) ∧ ∀ w ∈ weights (softs p.1), p.2.minWeight ≤ w)) := by
  have hs : p.2.nSofts = p.1.nSofts ∧ p.2.weightSum = p.1.weightSum ∧ p.2.minWeight = p.1.minWeight ∧ p.2.maxWeight = p.1.maxWeight := by
    rcases split_cases o with ho | ho
    · obtain ⟨l, ends, r', h1, h2, h3, h4, h5, h6, h7, h8, h9⟩ := split_levels alg maxCombs hw hp ho
      rw [hr] at h6
      injection h6 with h6
      subst h6
      obtain ⟨L, _, hk⟩ := h7.mem_right h
      exact hk.stats
    · rw [split_unweighted alg maxCombs ho] at hr
      injection hr with hr
      subst hr
      rw [List.mem_singleton] at h
      subst h
      exact ⟨rfl, rfl, rfl, rfl⟩
  obtain ⟨h1, h2, h3, h4⟩ := hs
  rw [h1, h2, h3, h4]
  exact stats_of p.1

/-! ### Runs of the tool -/

private theorem lexLt_shift {os os' : List Objective} {k : Nat → Int}
    (h : ∀ j a, DimacsSpec.objValue os' j a = DimacsSpec.objValue os j a - k j) (a b : Asg) : LexLt os' a b ↔ LexLt os a b := by
  unfold LexLt
  constructor
  · rintro ⟨j, h1, h2⟩
    refine ⟨j, ?_, fun i hi => ?_⟩
    · rw [h, h] at h1; omega
    · have := h2 i hi
      rw [h, h] at this; omega
  · rintro ⟨j, h1, h2⟩
    refine ⟨j, ?_, fun i hi => ?_⟩
    · rw [h, h]; omega
    · rw [h, h, h2 i hi]

/-- The lexicographic optima of `m` are the optima of `i`, with values for further variables. -/
def SameOptima (i : OptInstance BasicVM) (m : MultiOptInstance BasicVM) : Prop :=
  (∀ b, LexOptimal m b → Optimal i b) ∧
  ∀ a, Optimal i a → ∃ b, (∀ v, i.constrs.hasVar v ∨ i.obj.hasVar v → b v = a v) ∧ LexOptimal m b

private theorem sameOptima_of {i : OptInstance BasicVM} {m : MultiOptInstance BasicVM}
    (hv : ∀ a b : Asg, LexLt m.objs a b ↔ i.obj.value a < i.obj.value b) (h1 : ∀ b, m.constrs.sat b → i.constrs.sat b)
    (h2 : ∀ a, i.constrs.sat a → ∃ b, (∀ v, i.constrs.hasVar v ∨ i.obj.hasVar v → b v = a v) ∧ m.constrs.sat b) : SameOptima i m := by
  refine ⟨fun b hb => ⟨h1 b hb.1, fun c hc => ?_⟩, fun a ha => ?_⟩
  · obtain ⟨d, k1, k2⟩ := h2 c hc
    have := hb.2 d k2
    rw [hv, objValue_congr i.obj fun v hv => k1 v (.inr hv)] at this
    omega
  · obtain ⟨b, k1, k2⟩ := h2 a ha.1
    refine ⟨b, k1, k2, fun c hc hlt => ?_⟩
    rw [hv, objValue_congr i.obj fun v hv => k1 v (.inr hv)] at hlt
    have := ha.2 c (h1 c hc)
    omega

private theorem split_run {alg : SplitAlg} {maxCombs : Nat} {i : OptInstance BasicVM} {r : List (Objective × ObjStats)}
    (h : splitObjective alg maxCombs i.obj = some r) :
    split alg maxCombs i = some (MultiOptInstance.compose i.decompose.1 (r.map Prod.fst), r.map Prod.snd) := by
  have : splitObjective alg maxCombs i.decompose.2 = some r := h
  simp only [split, this]

private theorem softs_bound {o : Objective} {r : List (Objective × ObjStats)} (hm : ∀ p ∈ r, p.1.WF ∧ 0 < p.2.multiplier)
    (hs : (r.flatMap fun p => scale p.2.multiplier (softs p.1)).Perm (softs o)) {p : Objective × ObjStats} (hp : p ∈ r)
    {q : Clause × Nat} (hq : q ∈ p.1.iterSoftCls) : ∃ q' ∈ softs o, q'.1 = q.1 ∧ q'.2 = p.2.multiplier * q.2 ∧ q.2 ≤ q'.2 := by
  refine ⟨(q.1, p.2.multiplier * q.2), hs.mem_iff.1 (List.mem_flatMap.2 ⟨p, hp, List.mem_map.2 ⟨q, hq, rfl⟩⟩), rfl, rfl, ?_⟩
  exact Nat.le_mul_of_pos_left _ (hm p hp).2

private theorem length_split {alg : SplitAlg} {maxCombs : Nat} {o : Objective} (hw : o.WF) (hp : Proper o)
    {r : List (Objective × ObjStats)} (hr : splitObjective alg maxCombs o = some r) : r.length ≤ (softs o).length + 1 := by
  rcases split_cases o with ho | ho
  · obtain ⟨l, ends, r', h1, h2, h3, h4, h5, h6, h7, h8, h9⟩ := split_levels alg maxCombs hw hp ho
    rw [hr] at h6
    injection h6 with h6
    subst h6
    rw [← h7.length, length_slices, ← h1.length_eq]
    have : ∀ (n : Nat) (es : List Nat), es.Pairwise (· < ·) → (∀ e ∈ es, n ≤ e ∧ e + 1 < l.length) → es.length + n ≤ max l.length n := by
      intro n es
      induction es generalizing n with
      | nil => intro _ _; simp
      | cons e es ih =>
        intro hpw hb
        obtain ⟨g1, g2⟩ := List.pairwise_cons.1 hpw
        have g3 := hb e (List.mem_cons_self ..)
        have := ih (e + 1) g2 fun x hx => ⟨g1 x hx, (hb x (List.mem_cons_of_mem _ hx)).2⟩
        rw [List.length_cons]
        omega
    have := this 0 ends h5.ok.1 h5.ok.2.1
    omega
  · rw [split_unweighted alg maxCombs ho] at hr
    injection hr with hr
    subst hr
    simp

/-- C82: a run of the tool that writes an MCNF file. The lexicographic optima of the written instance are the optima of the
instance that was read, with values for further variables; the exit code says whether the objective was split. The constraints
must be such that the default encodings are correct (C37). -/
theorem C82_mcnf {args : Args} {t : Text} {i : OptInstance BasicVM} (hr : parseInstance args.input args.opts t = .ok i)
    (hf : writeFormat args = .mcnf) (hto : args.toFile = true) (hreg : ∀ c ∈ i.constrs.pbs, c.Regular)
    (hfit : ∀ mo stats, split args.alg args.maxCombs i = some (mo, stats) → EncodingFits mo.constrs)
    (hw : ∀ w ∈ weights (softs i.obj), w ≤ usizeMax) (hl : (softs i.obj).length < usizeMax) :
    ∃ mo stats, split args.alg args.maxCombs i = some (mo, stats) ∧
      ((1 < mo.objs.length ∨ args.alwaysDump = true) → ∃ u i', gbmosplit args t = .exit (if 1 < mo.objs.length then 0 else 1) (some u) ∧
        MultiOptInstance.fromDimacs (VM := BasicVM) ⟨0⟩ u = .ok i' ∧ SameOptima i i') ∧
      (¬ (1 < mo.objs.length ∨ args.alwaysDump = true) → gbmosplit args t = .exit 1 none) := by
  obtain ⟨k1, k2, k3, -⟩ := C82_reads hr
  obtain ⟨r, h1, h2, h3, -⟩ := C82_softs args.alg args.maxCombs k2 k3
  have hsp := split_run h1
  refine ⟨_, _, hsp, fun hd => ?_, fun hd => ?_⟩
  · obtain ⟨d1, d2, d3, d4, _⟩ := optDecompose_spec i k1
    obtain ⟨l1, l2⟩ := DimacsSpec.learnObjs_spec (r.map Prod.fst) i.decompose.1.vm
    have hknown : (MultiOptInstance.compose i.decompose.1 (r.map Prod.fst)).constrs.Known :=
      fun v hv => Nat.lt_of_lt_of_le (d1 v hv) l1
    obtain ⟨e, c1, c2, c3, c4, c5, c6, c7⟩ := convert_any (MultiOptInstance.compose i.decompose.1 (r.map Prod.fst)).constrs
      (.inr ⟨hknown, hreg⟩)
    obtain ⟨f1, f2⟩ := hfit _ _ hsp e c1
    obtain ⟨u, i', w1, w2, _, w3, _, _, _, w5, _, w4⟩ := C43_instance_partial (VM := BasicVM) ⟨0⟩
      (⟨e, r.map Prod.fst⟩ : MultiOptInstance BasicVM) c2 c3 (fun c hc => writable_of_lt f1 (c5 c hc))
      (fun o ho q hq => by
        have l3 := l2 o ho
        obtain ⟨p, hp, rfl⟩ := List.mem_map.1 ho
        refine ⟨writable_of_lt f1 fun l hl => .inr (Nat.lt_of_lt_of_le (l3 _ (iterSoftCls_vars q hq l hl)) c4), ?_⟩
        obtain ⟨q', g1, g2, g3, g4⟩ := softs_bound h2 h3 hp hq
        exact Nat.le_trans g4 (hw q'.2 (List.mem_map_of_mem g1))) (by
        show (r.map Prod.fst).length ≤ _
        rw [List.length_map]
        have := length_split k2 k3 h1
        omega)
    refine ⟨u, i', ?_, w2, sameOptima_of (fun a b => ?_) (fun b hb => (d2 b).1 (c6 b ((w3 b).1 hb))) fun a ha => ?_⟩
    · rw [gbmosplit, hr]
      simp only [hsp]
      have hlen : (MultiOptInstance.compose i.decompose.1 (r.map Prod.fst)).objs.length > 1 ↔
          1 < (MultiOptInstance.compose i.decompose.1 (r.map Prod.fst)).objs.length := Iff.rfl
      have hd' : (decide ((MultiOptInstance.compose i.decompose.1 (r.map Prod.fst)).objs.length > 1) || args.alwaysDump) = true := by
        rcases hd with hd | hd
        · rw [decide_eq_true hd]; rfl
        · rw [hd, Bool.or_true]
      rw [if_pos hd', hf, writeInstance]
      simp only [c1]
      have w1' : MultiOptInstance.writeDimacs { MultiOptInstance.compose i.decompose.1 (r.map Prod.fst) with constrs := e } = .ok u := w1
      rw [w1']
      simp only [ToolResult.ofRes, hto, if_true, decide_eq_true_eq]
    · rw [← C82_order k2 k3 h1]
      refine lexLt_shift (k := fun j => match (r.map Prod.fst)[j]? with | some o => o.offset | none => 0) (fun j a => ?_) a b
      cases hj : (r.map Prod.fst)[j]? with
      | some o =>
        rw [w4 j o hj a]
        simp only [DimacsSpec.objValue, hj]
      | none =>
        have : i'.objs[j]? = none := by
          rw [List.getElem?_eq_none_iff] at hj ⊢
          exact Nat.le_trans w5 hj
        simp only [DimacsSpec.objValue, hj, this]
        rfl
    · obtain ⟨b, g1, g2⟩ := c7 a ((d2 a).2 ha)
      refine ⟨b, fun v hv => g1 v ?_, (w3 b).2 g2⟩
      rcases hv with hv | hv
      · exact hknown v hv
      · exact Nat.lt_of_lt_of_le (d3 v hv) l1
  · rw [not_or] at hd
    rw [gbmosplit, hr]
    simp only [hsp]
    have h0 : decide ((MultiOptInstance.compose i.decompose.1 (r.map Prod.fst)).objs.length > 1) = false := decide_eq_false hd.1
    have ha : args.alwaysDump = false := Bool.eq_false_iff.2 hd.2
    rw [h0, ha]
    rfl

/-! ### Writing OPB files -/

private theorem relaxObjs_lits (vm : BasicVM) {os : List Objective} (h : ∀ o ∈ os, o.nClauses = 0) : relaxObjs vm os = (os, vm) := by
  induction os with
  | nil => rfl
  | cons o os ih =>
    have h0 := h o (List.mem_cons_self ..)
    have hc : o.convertToSoftLits vm = ([], o, vm) := by
      cases o with
      | weighted off sl sc =>
        have : sc = [] := List.length_eq_zero_iff.1 h0
        subst this; rfl
      | unweighted off u sl sc =>
        have : sc = [] := List.length_eq_zero_iff.1 h0
        subst this; rfl
    rw [relaxObjs, hc]
    simp only
    rw [ih fun x hx => h x (List.mem_cons_of_mem _ hx)]

private theorem units_of_lits {o : Objective} (h : o.nClauses = 0) : ∀ p ∈ softs o, p.1.length = 1 := by
  intro p hp
  cases o with
  | weighted off sl sc =>
    have : sc = [] := List.length_eq_zero_iff.1 h
    subst this
    obtain ⟨q, _, rfl⟩ := List.mem_map.1 (show p ∈ sl.map (fun p => ([p.1.neg], p.2)) by simpa [softs, Objective.iterSoftCls] using hp)
    rfl
  | unweighted off u sl sc =>
    have : sc = [] := List.length_eq_zero_iff.1 h
    subst this
    obtain ⟨q, _, rfl⟩ := List.mem_map.1 (show p ∈ sl.map (fun l => ([l.neg], u.getD 0)) by
      simpa [softs, Objective.iterSoftCls] using hp)
    rfl

private theorem lits_of_units {o : Objective} (hw : o.WF) (h : ∀ p ∈ softs o, p.1.length = 1) : o.nClauses = 0 := by
  cases o with
  | weighted off sl sc =>
    cases sc with
    | nil => rfl
    | cons p sc => exact absurd (h p (List.mem_append_right _ (List.mem_cons_self ..))) (hw.2.2 p (List.mem_cons_self ..))
  | unweighted off u sl sc =>
    cases sc with
    | nil => rfl
    | cons c sc =>
      exact absurd (h (c, u.getD 0) (List.mem_append_right _ (List.mem_map_of_mem (List.mem_cons_self ..))))
        (hw.2 c (List.mem_cons_self ..))

private theorem iterSoftLits_of {o : Objective} (h : o.nClauses = 0) :
    ∃ ls, o.iterSoftLits = some ls ∧ softs o = ls.map fun p => ([p.1.neg], p.2) := by
  cases o with
  | weighted off sl sc =>
    have : sc = [] := List.length_eq_zero_iff.1 h
    subst this
    exact ⟨sl, rfl, by simp [softs, Objective.iterSoftCls]⟩
  | unweighted off u sl sc =>
    have : sc = [] := List.length_eq_zero_iff.1 h
    subst this
    exact ⟨sl.map fun l => (l, u.getD 0), rfl, by simp [softs, Objective.iterSoftCls]⟩

private theorem softLits_all {os : List Objective} (h : ∀ o ∈ os, o.nClauses = 0) :
    ∃ sl, MultiOptInstance.softLits os = some sl ∧
      ∀ p ∈ sl, ∃ o ∈ os, softs o = (p.1.map fun q => ([q.1.neg], q.2)) ∧ p.2 = o.offset := by
  induction os with
  | nil => exact ⟨[], rfl, fun p hp => by cases hp⟩
  | cons o os ih =>
    obtain ⟨sl, h1, h2⟩ := ih fun x hx => h x (List.mem_cons_of_mem _ hx)
    obtain ⟨ls, h3, h4⟩ := iterSoftLits_of (h o (List.mem_cons_self ..))
    refine ⟨(ls, o.offset) :: sl, by rw [MultiOptInstance.softLits, h1, h3], fun p hp => ?_⟩
    rcases List.mem_cons.1 hp with rfl | hp
    · exact ⟨o, List.mem_cons_self .., h4, rfl⟩
    · obtain ⟨o', g1, g2⟩ := h2 p hp
      exact ⟨o', List.mem_cons_of_mem _ g1, g2⟩

private theorem weights_le {o : Objective} {r : List (Objective × ObjStats)} (hm : ∀ p ∈ r, p.1.WF ∧ 0 < p.2.multiplier)
    (hs : (r.flatMap fun p => scale p.2.multiplier (softs p.1)).Perm (softs o)) {p : Objective × ObjStats} (hp : p ∈ r) :
    (weights (softs p.1)).sum ≤ (weights (softs o)).sum := by
  have h0 : (weights (softs o)).sum = (weights (r.flatMap fun p => scale p.2.multiplier (softs p.1))).sum :=
    ((hs.map Prod.snd).sum_nat).symm
  rw [h0]
  clear h0 hs
  have h1 : ∀ (m : Nat) (l : List (Clause × Nat)), 0 < m → (weights l).sum ≤ (weights (scale m l)).sum := by
    intro m l hm
    induction l with
    | nil => exact Nat.le_refl _
    | cons q l ih =>
      have : q.2 ≤ m * q.2 := Nat.le_mul_of_pos_left _ hm
      simp only [weights, scale, List.map_cons, List.sum_cons] at ih ⊢
      omega
  induction r with
  | nil => cases hp
  | cons q r ih =>
    have hs : (weights ((q :: r).flatMap fun p => scale p.2.multiplier (softs p.1))).sum =
        (weights (scale q.2.multiplier (softs q.1))).sum + (weights (r.flatMap fun p => scale p.2.multiplier (softs p.1))).sum := by
      rw [List.flatMap_cons, weights, List.map_append, List.sum_append]
      rfl
    rw [hs]
    rcases List.mem_cons.1 hp with rfl | hp
    · have := h1 p.2.multiplier (softs p.1) (hm p (List.mem_cons_self ..)).2
      omega
    · have := ih (fun x hx => hm x (List.mem_cons_of_mem _ hx)) hp
      omega

/-- C82, for objectives whose soft clauses are units (like those read from OPB files): a run of the tool that writes an OPB file.
The constraints are kept, and the lexicographic optima of the written instance are the optima of the instance that was read. With
longer soft clauses this fails (`C82_violated_opb`). -/
theorem C82_opb_partial {args : Args} {t : Text} {i : OptInstance BasicVM} (hr : parseInstance args.input args.opts t = .ok i)
    (hf : writeFormat args = .opb) (hto : args.toFile = true) (hu : ∀ p ∈ softs i.obj, p.1.length = 1)
    (hfit : OpbSpec.InstanceFits args.opts.firstVarIdx i.constrs)
    (hv : ∀ p ∈ softs i.obj, ∀ l ∈ p.1, OpbSpec.VarFits args.opts.firstVarIdx l)
    (hw : (weights (softs i.obj)).sum + i.obj.offset.natAbs ≤ 9223372036854775807) :
    ∃ mo stats, split args.alg args.maxCombs i = some (mo, stats) ∧
      ((1 < mo.objs.length ∨ args.alwaysDump = true) → ∃ u i', gbmosplit args t = .exit (if 1 < mo.objs.length then 0 else 1) (some u) ∧
        MultiOptInstance.fromOpb (VM := BasicVM) ⟨0⟩ args.opts u = .ok i' ∧ (∀ a, i'.constrs.sat a ↔ i.constrs.sat a) ∧
        i'.objs.length = mo.objs.length ∧ ∀ a, LexOptimal i' a ↔ Optimal i a) ∧
      (¬ (1 < mo.objs.length ∨ args.alwaysDump = true) → gbmosplit args t = .exit 1 none) := by
  obtain ⟨k1, k2, k3, -⟩ := C82_reads hr
  obtain ⟨r, h1, h2, h3, ps, q, hrq, hps, hq⟩ := C82_softs args.alg args.maxCombs k2 k3
  have hsp := split_run h1
  refine ⟨_, _, hsp, fun hd => ?_, fun hd => ?_⟩
  · have hlits : ∀ o ∈ r.map Prod.fst, o.nClauses = 0 := by
      intro o ho
      obtain ⟨p, hp, rfl⟩ := List.mem_map.1 ho
      refine lits_of_units (h2 p hp).1 fun x hx => ?_
      obtain ⟨q', g1, g2, -⟩ := softs_bound h2 h3 hp hx
      rw [← g2]
      exact hu q' g1
    obtain ⟨sl, s1, s2⟩ := softLits_all hlits
    have hoff : ∀ p ∈ r, p.1.offset.natAbs ≤ i.obj.offset.natAbs := by
      intro p hp
      rw [hrq] at hp
      rcases List.mem_append.1 hp with hp | hp
      · rw [hps p hp]; simp
      · rw [List.mem_singleton.1 hp, hq]
    obtain ⟨u, i', w1, w2, _, w3, w5, w4⟩ := C44_multi_instance (VM := BasicVM) ⟨0⟩
      (MultiOptInstance.compose { (MultiOptInstance.compose i.decompose.1 (r.map Prod.fst)).decompose.1 with
        vm := (MultiOptInstance.compose i.decompose.1 (r.map Prod.fst)).decompose.1.vm } (r.map Prod.fst))
      (opts := args.opts) (opts' := args.opts) rfl hfit s1 (by
        intro p hp
        obtain ⟨o, ho, g1, g2⟩ := s2 p hp
        obtain ⟨x, hx, rfl⟩ := List.mem_map.1 ho
        refine ⟨fun y hy => ?_, ?_⟩
        · have hy' : (([y.1.neg], y.2) : Clause × Nat) ∈ softs x.1 := by
            rw [g1]; exact List.mem_map.2 ⟨y, hy, rfl⟩
          obtain ⟨q', e1, e2, -⟩ := softs_bound h2 h3 hx hy'
          have := hv q' e1 y.1.neg (by rw [e2]; exact List.mem_singleton_self _)
          rw [OpbSpec.VarFits, Lit.var_neg] at this
          exact this
        · have := weights_le h2 h3 hx
          have e : (weights (softs x.1)).sum = wtotal p.1 := by
            rw [g1, weights, List.map_map, wtotal_eq_sum]
            rfl
          have := hoff x hx
          rw [g2]
          omega)
    have w3' : ∀ a, i'.constrs.sat a ↔ i.constrs.sat a := w3
    have w5' : i'.objs.length = (r.map Prod.fst).length := w5
    have w4' : ∀ (k : Nat) o, (r.map Prod.fst)[k]? = some o → ∃ o' c, i'.objs[k]? = some o' ∧ o'.WF ∧ ∀ a, o.value a = o'.value a + c := w4
    have hlex : ∀ a b, LexLt i'.objs a b ↔ i.obj.value a < i.obj.value b := by
      intro a b
      rw [← C82_order k2 k3 h1]
      refine lexLt_shift (k := fun j => DimacsSpec.objValue (r.map Prod.fst) j (fun _ => false) -
        DimacsSpec.objValue i'.objs j fun _ => false) (fun j a => ?_) a b
      cases hj : (r.map Prod.fst)[j]? with
      | some o =>
        obtain ⟨o', c, g1, -, g2⟩ := w4' j o hj
        simp only [DimacsSpec.objValue, hj, g1, g2]
        omega
      | none =>
        have : i'.objs[j]? = none := by
          rw [List.getElem?_eq_none_iff] at hj ⊢
          omega
        simp only [DimacsSpec.objValue, hj, this]
        rfl
    refine ⟨u, i', ?_, w2, w3', w5', fun a => ?_⟩
    · rw [gbmosplit, hr]
      simp only [hsp]
      have hd' : (decide ((MultiOptInstance.compose i.decompose.1 (r.map Prod.fst)).objs.length > 1) || args.alwaysDump) = true := by
        rcases hd with hd | hd
        · rw [decide_eq_true hd]; rfl
        · rw [hd, Bool.or_true]
      rw [if_pos hd', hf, writeInstance]
      have e : relaxObjs (MultiOptInstance.compose i.decompose.1 (r.map Prod.fst)).decompose.1.vm
          (MultiOptInstance.compose i.decompose.1 (r.map Prod.fst)).decompose.2 = (r.map Prod.fst, _) := relaxObjs_lits _ hlits
      simp only [e, w1, ToolResult.ofRes, hto, if_true, decide_eq_true_eq]
    · constructor
      · intro ha
        refine ⟨(w3' a).1 ha.1, fun b hb => ?_⟩
        have := ha.2 b ((w3' b).2 hb)
        rw [hlex] at this
        omega
      · intro ha
        refine ⟨(w3' a).2 ha.1, fun b hb hlt => ?_⟩
        rw [hlex] at hlt
        have := ha.2 b ((w3' b).1 hb)
        omega
  · rw [not_or] at hd
    rw [gbmosplit, hr]
    simp only [hsp]
    have h0 : decide ((MultiOptInstance.compose i.decompose.1 (r.map Prod.fst)).objs.length > 1) = false := decide_eq_false hd.1
    have ha : args.alwaysDump = false := Bool.eq_false_iff.2 hd.2
    rw [h0, ha]
    rfl

/-- C82: the exit code of the tool says whether the documented condition for a split holds somewhere. -/
theorem C82_exit_code {args : Args} {t : Text} {i : OptInstance BasicVM} (hr : parseInstance args.input args.opts t = .ok i)
    {code : Nat} {w : Option Text} (he : gbmosplit args t = .exit code w) {ws : List Nat} (ha : ws.Pairwise (· ≤ ·))
    (hws : ws.Perm (weights (softs i.obj))) (hm : args.alg = .gbmo → 2 ^ ws.length ≤ args.maxCombs) :
    code = 0 ∧ (∃ off sl sc, i.obj = .weighted off sl sc) ∧ (∃ k, k + 1 < ws.length ∧ IsCut args.alg ws k) ∨
    code = 1 ∧ ¬ ((∃ off sl sc, i.obj = .weighted off sl sc) ∧ ∃ k, k + 1 < ws.length ∧ IsCut args.alg ws k) := by
  obtain ⟨k1, k2, k3, -⟩ := C82_reads hr
  obtain ⟨r, h1, h2, h3, -⟩ := C82_softs args.alg args.maxCombs k2 k3
  have hsp := split_run h1
  have hcode : code = if 1 < r.length then 0 else 1 := by
    rw [gbmosplit, hr] at he
    simp only [hsp] at he
    have hlen : (MultiOptInstance.compose i.decompose.1 (r.map Prod.fst)).objs.length = r.length := List.length_map ..
    rw [hlen] at he
    split at he
    · split at he
      · cases he
      · cases he
      · injection he with he _
        rw [← he]
        simp
    · injection he with he _
      rw [← he]
      simp
  have hiff : 1 < r.length ↔ (∃ off sl sc, i.obj = .weighted off sl sc) ∧ ∃ k, k + 1 < ws.length ∧ IsCut args.alg ws k := by
    rcases split_cases i.obj with ⟨off, sl, sc, ho⟩ | ho
    · rw [ho] at h1 k2 k3 hws
      obtain ⟨parts, p1, p2⟩ := C82_cuts k2 k3 h1 ha hws hm
      rw [p2.1]
      constructor
      · intro hlt
        refine ⟨⟨off, sl, sc, ho⟩, ?_⟩
        match parts, hlt, p1 with
        | x :: y :: parts, _, p1 =>
          have hx : 0 < x.length := List.length_pos_iff.2 (p1.2.1 x (by simp))
          have hy : 0 < y.length := List.length_pos_iff.2 (p1.2.1 y (by simp))
          have hlen := congrArg List.length p1.1
          simp only [List.flatten_cons, List.length_append] at hlen
          refine ⟨x.length - 1, by omega, (p1.2.2 (x.length - 1) (by omega)).2 ⟨[x], y :: parts, rfl, ?_⟩⟩
          simp only [List.flatten_cons, List.flatten_nil, List.append_nil]
          omega
      · rintro ⟨_, k, hk, hc⟩
        obtain ⟨front, back, e, hl⟩ := (p1.2.2 k hk).1 hc
        have hf : 0 < front.length := by
          cases front with
          | nil => simp at hl
          | cons _ _ => simp
        have hb : 0 < back.length := by
          cases back with
          | nil =>
            rw [List.append_nil] at e
            rw [← e, p1.1] at hl
            omega
          | cons _ _ => simp
        rw [e, List.length_append]
        omega
    · rw [split_unweighted _ _ ho] at h1
      injection h1 with h1
      subst h1
      obtain ⟨off, u, sl, sc, ho⟩ := ho
      rw [ho]
      constructor
      · intro h; simp at h
      · rintro ⟨⟨_, _, _, h⟩, _⟩; cases h
  by_cases h : 1 < r.length
  · rw [if_pos h] at hcode
    exact .inl ⟨hcode, hiff.1 h⟩
  · rw [if_neg h] at hcode
    exact .inr ⟨hcode, fun hc => h (hiff.2 hc)⟩

/-! ### What goes wrong -/

/-- The value that the objectives stand for: the sum of their values, with their multipliers. -/
def total (r : List (Objective × ObjStats)) (a : Asg) : Int := (r.map fun p => (p.2.multiplier : Int) * p.1.value a).sum

/-- C82 fails for offsets: the warning says that the offset is added to the lowest-ranking objective, but it becomes the offset of
the highest-ranking one, where it is multiplied by the multiplier: with `x0 + 3 x1 + 1` the sum with the multipliers has the
wrong value. -/
theorem C82_violated_offset : ∃ r, splitObjective .gbmo 100000 (.weighted 1 [(⟨0⟩, 1), (⟨2⟩, 3)] []) = some r ∧
    r.map (fun p => (p.1.offset, p.2.multiplier)) = [(0, 1), (1, 3)] ∧
    total r (fun _ => false) = 3 ∧ (Objective.weighted 1 [(⟨0⟩, 1), (⟨2⟩, 3)] []).value (fun _ => false) = 1 := by
  exact ⟨[(.unweighted 0 (some 1) [⟨0⟩] [], ⟨1, 1, 1, 1, 1⟩), (.unweighted 1 (some 1) [⟨2⟩] [], ⟨1, 1, 1, 1, 3⟩)],
    by cbv, by cbv, by cbv, by cbv⟩

/-- A lone soft literal never has a negative value. -/
private theorem lone_nonneg (l : Lit) (a : Asg) : 0 ≤ (Objective.unweighted 0 (some 1) [l] []).value a := by
  simp only [Objective.value]
  exact Int.add_nonneg (by decide) (Int.natCast_nonneg _)

set_option maxRecDepth 10000 in
/-- C82 fails for OPB files with soft clauses that are not units: the clauses that define the literals in the objectives are not
written. For the soft clauses `¬x0` with weight 1 and `x0 ∨ x1` with weight 3 the written instance has an optimum at which both
variables are false. -/
theorem C82_violated_opb : ∃ i u i' a, parseInstance .wcnf { Opb.Options.dflt with firstVarIdx := 1 } "1 -1 0\n3 1 2 0\n".toList = .ok i ∧
    gbmosplit { output := some .opb } "1 -1 0\n3 1 2 0\n".toList = .exit 0 (some u) ∧
    MultiOptInstance.fromOpb (VM := BasicVM) ⟨0⟩ { Opb.Options.dflt with firstVarIdx := 1 } u = .ok i' ∧
    LexOptimal i' a ∧ ¬ Optimal i a := by
  refine ⟨⟨⟨[], [], [], ⟨2⟩⟩, .weighted 0 [(⟨0⟩, 1)] [([⟨0⟩, ⟨2⟩], 3)]⟩,
    ("* #variable = 3 #constraint= 0\n* OPB file written by RustSAT\n* maximum variable: x2\n* 0 original hard clauses\n".toList ++
    "* 0 cardinality constraints\n* 0 pseudo-boolean constraints\n* ( ) relaxed and hardened soft clauses\n".toList ++
    "min: 1 x1;\nmin: 1 x3;\n".toList),
    ⟨⟨[], [], [], ⟨3⟩⟩, [.unweighted 0 (some 1) [⟨0⟩] [], .unweighted 0 (some 1) [⟨4⟩] []]⟩, fun _ => false,
    by cbv, by cbv, by cbv, ⟨?_, ?_⟩, ?_⟩
  · exact ⟨fun c hc => (by cases hc), fun c hc => (by cases hc), fun c hc => (by cases hc)⟩
  · rintro b - ⟨j, h, -⟩
    match j with
    | 0 =>
      have := lone_nonneg ⟨0⟩ b
      have e : DimacsSpec.objValue [.unweighted 0 (some 1) [⟨0⟩] [], .unweighted 0 (some 1) [⟨4⟩] []] 0 (fun _ => false) = 0 := by cbv
      simp only [e] at h
      exact absurd this (Int.not_le.2 h)
    | 1 =>
      have := lone_nonneg ⟨4⟩ b
      have e : DimacsSpec.objValue [.unweighted 0 (some 1) [⟨0⟩] [], .unweighted 0 (some 1) [⟨4⟩] []] 1 (fun _ => false) = 0 := by cbv
      simp only [e] at h
      exact absurd this (Int.not_le.2 h)
    | j + 2 => exact absurd h (Int.lt_irrefl _)
  · rintro ⟨-, h⟩
    have := h (fun v => v == 1) ⟨fun c hc => (by cases hc), fun c hc => (by cases hc), fun c hc => (by cases hc)⟩
    revert this
    simp only [Objective.value]
    decide

set_option maxRecDepth 10000 in
/-- C82 fails without a path for the output: messages are also printed to the standard output, so that what is written there
cannot be read again. -/
theorem C82_violated_stdout : ∃ u, gbmosplit { toFile := false, inPath := some "a.wcnf".toList } "1 -1 0\n3 1 2 0\n".toList =
      .exit 0 (some u) ∧ MultiOptInstance.fromDimacs (VM := BasicVM) ⟨0⟩ u = .err .parsing := by
  refine ⟨("info: finding splits in a.wcnf\nc MCNF file written by RustSAT\nc 2 variables\nc 0 hard clauses\nc 2 objectives\n".toList ++
    "c ( 1 1 ) soft clauses\nc objective offsets: ( 0 0 )\no 1 1 -1 0\no 2 1 1 2 0\n".toList), by cbv, by cbv⟩

/-! ### Examples -/

/-- Weights that only `gbmo` can split. -/
def gbmoDemo : Objective := .weighted 0 [(⟨0⟩, 1), (⟨3⟩, 7)] [([⟨0⟩, ⟨2⟩], 5), ([⟨4⟩, ⟨2⟩], 5)]

theorem gbmoDemo_ok : gbmoDemo.WF ∧ Proper gbmoDemo := by
  refine ⟨⟨by decide, by decide, by decide⟩, ⟨?_, fun _ _ _ _ => by decide⟩⟩
  decide

example : (splitObjective .bmo 100000 gbmoDemo).map (·.map fun p => (p.2.nSofts, p.2.multiplier)) = some [(4, 1)] := by cbv
example : (splitObjective .gcd 100000 gbmoDemo).map (·.map fun p => (p.2.nSofts, p.2.multiplier)) = some [(4, 1)] := by cbv
example : (splitObjective .gbmo 100000 gbmoDemo).map (·.map fun p => (p.2.nSofts, p.2.multiplier)) = some [(1, 1), (3, 1)] := by cbv
example : (splitObjective .gbmo 2 gbmoDemo).map (·.map fun p => (p.2.nSofts, p.2.multiplier)) = some [(4, 1)] := by cbv
example : (splitObjective .bmo 100000 (.weighted 0 [(⟨0⟩, 1), (⟨3⟩, 1), (⟨4⟩, 3), (⟨6⟩, 3)] [])).map
    (·.map fun p => (p.2.nSofts, p.2.multiplier)) = some [(2, 1), (2, 3)] := by cbv
example : (splitObjective .gcd 100000 (.weighted 0 [(⟨0⟩, 1), (⟨3⟩, 4), (⟨4⟩, 4), (⟨6⟩, 6)] [])).map
    (·.map fun p => (p.2.nSofts, p.2.multiplier)) = some [(1, 1), (3, 2)] := by cbv

example := C82_softs .gbmo 100000 gbmoDemo_ok.1 gbmoDemo_ok.2

example (a b : Asg) : ∃ r, splitObjective .gbmo 100000 gbmoDemo = some r ∧ r.length = 2 ∧
    (LexLt (r.map Prod.fst) a b ↔ gbmoDemo.value a < gbmoDemo.value b) := by
  obtain ⟨r, h, -⟩ := C82_softs .gbmo 100000 gbmoDemo_ok.1 gbmoDemo_ok.2
  have e : (splitObjective .gbmo 100000 gbmoDemo).map List.length = some 2 := by cbv
  rw [h] at e
  exact ⟨r, h, Option.some.inj e, C82_order gbmoDemo_ok.1 gbmoDemo_ok.2 h a b⟩

example : ∃ r parts, splitObjective .gbmo 100000 gbmoDemo = some r ∧ CutAt (IsCut .gbmo [1, 5, 5, 7]) [1, 5, 5, 7] parts ∧
    HasParts r parts ∧ (∀ p ∈ r, listGcd (weights (softs p.1)) = 1) := by
  obtain ⟨r, h, -⟩ := C82_softs .gbmo 100000 gbmoDemo_ok.1 gbmoDemo_ok.2
  obtain ⟨parts, h1, h2⟩ := C82_cuts gbmoDemo_ok.1 gbmoDemo_ok.2 h (ws := [1, 5, 5, 7]) (by decide) (by decide) (fun _ => by decide)
  exact ⟨r, parts, h, h1, h2, C82_normalized gbmoDemo_ok.1 gbmoDemo_ok.2 h⟩

example : ∃ r parts cut, splitObjective .gbmo 2 gbmoDemo = some r ∧ CutAt cut [1, 5, 5, 7] parts ∧ HasParts r parts := by
  obtain ⟨r, h, -⟩ := C82_softs .gbmo 2 gbmoDemo_ok.1 gbmoDemo_ok.2
  obtain ⟨parts, cut, h1, h2, -⟩ := C82_cuts_limited gbmoDemo_ok.1 gbmoDemo_ok.2 h (ws := [1, 5, 5, 7]) (by decide) (by decide)
  exact ⟨r, parts, cut, h, h1, h2⟩

example : ∃ r, splitObjective .gbmo 100000 gbmoDemo = some r ∧
    (∀ a, gbmoDemo.value a = 0 + (r.map fun p => (p.2.multiplier : Int) * (p.1.value a - p.1.offset)).sum) ∧
    ∀ p ∈ r, p.2.nSofts = (softs p.1).length := by
  obtain ⟨r, h, -⟩ := C82_softs .gbmo 100000 gbmoDemo_ok.1 gbmoDemo_ok.2
  exact ⟨r, h, C82_value_partial gbmoDemo_ok.1 gbmoDemo_ok.2 h, fun p hp => (C82_stats gbmoDemo_ok.1 gbmoDemo_ok.2 h hp).1⟩

example := C82_optimum (alg := .gbmo) (maxCombs := 100000) (i := ⟨⟨[[⟨1⟩, ⟨5⟩]], [], [], ⟨3⟩⟩, gbmoDemo⟩) gbmoDemo_ok.1 gbmoDemo_ok.2

example := C82_history [.lit 2 ⟨0⟩, .lit 3 ⟨2⟩, .lit 2 ⟨0⟩]

/-- A file with soft clauses of weights 1 and 3. -/
def gbmoFile : Text := "h 1 2 0\n1 -1 0\n3 -2 3 0\n".toList

theorem gbmoFile_reads : parseInstance .wcnf { Opb.Options.dflt with firstVarIdx := 1 } gbmoFile =
    .ok ⟨⟨[[⟨0⟩, ⟨2⟩]], [], [], ⟨3⟩⟩, .weighted 0 [(⟨0⟩, 1)] [([⟨3⟩, ⟨4⟩], 3)]⟩ := by cbv

example := C82_reads gbmoFile_reads

example : ∃ u i', gbmosplit {} gbmoFile = .exit 0 (some u) ∧ MultiOptInstance.fromDimacs (VM := BasicVM) ⟨0⟩ u = .ok i' ∧
    SameOptima ⟨⟨[[⟨0⟩, ⟨2⟩]], [], [], ⟨3⟩⟩, .weighted 0 [(⟨0⟩, 1)] [([⟨3⟩, ⟨4⟩], 3)]⟩ i' := by
  have hsp : split .gbmo 100000 ⟨⟨[[⟨0⟩, ⟨2⟩]], [], [], ⟨3⟩⟩, .weighted 0 [(⟨0⟩, 1)] [([⟨3⟩, ⟨4⟩], 3)]⟩ =
    some (⟨⟨[[⟨0⟩, ⟨2⟩]], [], [], ⟨3⟩⟩, [.unweighted 0 (some 1) [⟨0⟩] [], .unweighted 0 (some 1) [] [[⟨3⟩, ⟨4⟩]]]⟩,
      [⟨1, 1, 1, 1, 1⟩, ⟨1, 1, 1, 1, 3⟩]) := by cbv
  obtain ⟨mo, stats, h1, h2, -⟩ := C82_mcnf (args := {}) gbmoFile_reads rfl rfl (fun c hc => (by cases hc)) (fun mo stats h => by
    rw [hsp] at h
    injection h with h
    injection h with h _
    subst h
    intro s' hs'
    have : SatInstance.convertToCnf (⟨[[⟨0⟩, ⟨2⟩]], [], [], ⟨3⟩⟩ : SatInstance BasicVM) = some ⟨[[⟨0⟩, ⟨2⟩]], [], [], ⟨3⟩⟩ := by cbv
    rw [this] at hs'
    injection hs' with hs'
    subst hs'
    decide) (by decide) (by decide)
  have e : (split .gbmo 100000 ⟨⟨[[⟨0⟩, ⟨2⟩]], [], [], ⟨3⟩⟩, .weighted 0 [(⟨0⟩, 1)] [([⟨3⟩, ⟨4⟩], 3)]⟩).map (fun p => p.1.objs.length) =
    some 2 := by rw [hsp]; rfl
  rw [h1] at e
  have e' : mo.objs.length = 2 := Option.some.inj e
  rw [e'] at h2
  exact h2 (.inl (by decide))

/-- An OPB file with coefficients 1, 1, -3. -/
def gbmoOpb : Text := "min: 1 x1 1 x2 -3 x3 ;\n1 x1 1 x2 >= 1;\n".toList

example : ∃ i u i', parseInstance .opb { Opb.Options.dflt with firstVarIdx := 1 } gbmoOpb = .ok i ∧
    gbmosplit { input := .opb } gbmoOpb = .exit 0 (some u) ∧
    MultiOptInstance.fromOpb (VM := BasicVM) ⟨0⟩ { Opb.Options.dflt with firstVarIdx := 1 } u = .ok i' ∧
    ∀ a, LexOptimal i' a ↔ Optimal i a := by
  have hr : parseInstance .opb { Opb.Options.dflt with firstVarIdx := 1 } gbmoOpb =
    .ok ⟨⟨[], [], [.lb [(⟨0⟩, 1), (⟨2⟩, 1)] 2 1], ⟨3⟩⟩, .weighted (-3) [(⟨0⟩, 1), (⟨2⟩, 1), (⟨5⟩, 3)] []⟩ := by cbv
  have e : (split .gbmo 100000 ⟨⟨[], [], [.lb [(⟨0⟩, 1), (⟨2⟩, 1)] 2 1], ⟨3⟩⟩, .weighted (-3) [(⟨0⟩, 1), (⟨2⟩, 1), (⟨5⟩, 3)] []⟩).map
    (fun p => p.1.objs.length) = some 2 := by cbv
  obtain ⟨mo, stats, h1, h2, -⟩ := C82_opb_partial (args := { input := .opb }) hr rfl rfl (by decide) (by
    refine ⟨fun c hc => (by cases hc), fun c hc => (by cases hc), fun c hc => ?_⟩
    rw [List.mem_singleton.1 hc]
    exact ⟨by decide, by decide⟩) (by decide) (by decide)
  rw [h1] at e
  have e' : mo.objs.length = 2 := Option.some.inj e
  rw [e'] at h2
  obtain ⟨u, i', k1, k2, -, -, k3⟩ := h2 (.inl (by decide))
  exact ⟨_, u, i', hr, k1, k2, k3⟩

example : ∃ k, k + 1 < [1, 3].length ∧ IsCut .gbmo [1, 3] k := by
  obtain ⟨w, h⟩ : ∃ w, gbmosplit {} gbmoFile = .exit 0 w := ⟨_, by cbv⟩
  rcases C82_exit_code (args := {}) gbmoFile_reads h (ws := [1, 3]) (by decide) (by decide) (fun _ => by decide) with h | h
  · exact h.2.2
  · exact absurd h.1 (by decide)

end RustSat
