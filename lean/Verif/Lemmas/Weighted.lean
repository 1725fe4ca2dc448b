import Verif.Lemmas.Reserve
/-
`define_weighted`: soundness of the clauses, no panic.
-/
namespace RustSat
namespace TotDb

/-! ### Values and connections -/

theorem PlainCon.revMap {db : Db} {c : NodeCon} (hc : PlainCon db c) (v : Nat) : c.revMap v = v / c.multiplier := by
  unfold NodeCon.revMap
  rw [hc.limit, hc.divisor, hc.offset]
  simp

theorem PlainCon.isPossible {db : Db} {c : NodeCon} (hc : PlainCon db c) (v : Nat) :
    c.isPossible v = true ↔ v % c.multiplier = 0 := by
  unfold NodeCon.isPossible
  rw [hc.limit]
  simp

theorem PlainCon.roundUp {db : Db} {c : NodeCon} (hc : PlainCon db c) (v x : Nat) :
    x < c.revMapRoundUp v ↔ c.map x < v := by
  unfold NodeCon.revMapRoundUp
  rw [hc.limit, hc.map]
  simp only
  have hm := hc.mult
  by_cases h : v % c.multiplier ≠ 0
  · rw [if_pos h, hc.revMap, Nat.add_div_right _ hm]
    have e := Nat.div_add_mod v c.multiplier
    have hlt := Nat.mod_lt v hm
    rw [Nat.lt_succ_iff, Nat.le_div_iff_mul_le hm]
    constructor
    · intro h1
      rcases Nat.lt_or_ge (x * c.multiplier) v with h2 | h2
      · exact h2
      · have : x * c.multiplier = v := by omega
        rw [← this, Nat.mul_mod_left] at h
        exact absurd rfl h
    · intro h1; omega
  · have h : v % c.multiplier = 0 := by omega
    rw [if_neg (by omega), hc.revMap, Nat.lt_div_iff_mul_lt hm]
    have e := Nat.div_add_mod v c.multiplier
    rw [h, Nat.add_zero] at e
    constructor
    · omega
    · intro h1
      have h2 : x < v / c.multiplier := by
        rcases Nat.lt_or_ge x (v / c.multiplier) with h' | h'
        · exact h'
        · have := Nat.mul_le_mul_left c.multiplier h'
          rw [e, Nat.mul_comm] at this
          omega
      have h3 := Nat.mul_le_mul_left c.multiplier (Nat.succ_le_of_lt h2)
      rw [e, Nat.mul_succ, Nat.mul_comm] at h3
      omega

/-- The values of a node are at most its maximum. -/
theorem vals_le_max {db : Db} (hw : db.WF) {id v : Nat} (h : v ∈ (db.node id).valsFrom 1) : v ≤ (db.node id).maxVal := by
  cases hn : db.node id with
  | leaf l => rw [hn] at h; simp [Node.valsFrom] at h; simp [Node.maxVal, h]
  | dummy => rw [hn] at h; cases h
  | unit lits => rw [hn] at h; simp only [Node.valsFrom, List.mem_range'_1] at h; simp only [Node.maxVal]; omega
  | general lits d nl m l r =>
    have hok := hw.nodes id _ (Db.getElem?_node (Db.node_lt (by rw [hn]; intro h; cases h)))
    rw [hn] at hok h
    obtain ⟨-, -, -, -, h5, -, h7⟩ := hok
    simp only [Node.valsFrom, List.mem_filter] at h
    simp only [Node.maxVal]
    rw [h7]
    unfold lastVal
    rcases List.eq_nil_or_concat (lits.map (·.1)) with h0 | ⟨init, y, h0⟩
    · rw [h0] at h; cases h.1
    · rw [List.concat_eq_append] at h0
      rw [h0] at h h5 ⊢
      simp only [List.getLast?_append, List.getLast?_singleton, Option.some_or, Option.getD_some]
      rcases List.mem_append.1 h.1 with h' | h'
      · exact Nat.le_of_lt ((List.pairwise_append.1 h5).2.2 v h' y (by simp))
      · simp at h'; omega

/-- The values of a general node are positive. -/
theorem general_vals {db : Db} (hw : db.WF) {id : Nat} {lits : List (Nat × LitData)} {d nl m : Nat} {l r : NodeCon}
    (hn : db.node id = .general lits d nl m l r) (v : Nat) :
    v ∈ (db.node id).valsFrom 1 ↔ v ∈ lits.map (·.1) := by
  have hok := hw.nodes id _ (Db.getElem?_node (Db.node_lt (by rw [hn]; intro h; cases h)))
  rw [hn] at hok ⊢
  obtain ⟨h1, h2, h3, h4, h5, h6, h7⟩ := hok
  simp only [Node.valsFrom, List.mem_filter, decide_eq_true_eq]
  refine ⟨fun h => h.1, fun h => ⟨h, ?_⟩⟩
  have pos : ∀ c, PlainCon db c → ∀ x ∈ TotDb.conVals db c, 1 ≤ x := by
    intro c hc x hx
    rw [hc.conVals] at hx
    obtain ⟨y, hy, rfl⟩ := List.mem_map.1 hx
    exact Nat.mul_pos (valsFrom_ge hy) hc.mult
  rcases (h6 v).1 h with h' | h' | ⟨x, hx, y, hy, rfl⟩
  · exact pos l h3 v h'
  · exact pos r h4 v h'
  · have := pos l h3 x hx; omega

theorem valIdx_some {lits : List (Nat × LitData)} {val k : Nat} (h : valIdx lits val = some k) :
    ∃ d, lits[k]? = some (val, d) := by
  obtain ⟨h1, h2, -⟩ := List.findIdx?_eq_some_iff_getElem.1 h
  refine ⟨lits[k].2, ?_⟩
  rw [List.getElem?_eq_getElem h1]
  have : lits[k].1 = val := by simpa using h2
  rw [← this]

theorem valIdx_none {lits : List (Nat × LitData)} {val : Nat} (h : valIdx lits val = none) :
    val ∉ lits.map (·.1) := by
  intro hm
  obtain ⟨x, hx, rfl⟩ := List.mem_map.1 hm
  have := List.findIdx?_eq_none_iff.1 h x hx
  simp at this

/-- With all literals true, a node has its largest value. -/
theorem value_all_max {db : Db} (hw : db.WF) : ∀ id, value db (fun _ => true) id = (db.node id).maxVal := by
  intro id
  induction id using Nat.strongRecOn with
  | _ id ih =>
    cases hn : db.node id with
    | dummy => rw [value_eq hw, hn]; rfl
    | leaf l => rw [value_eq hw, hn]; rfl
    | unit lits => rw [value_all hw id (by rw [hn]; rfl), hn]; rfl
    | general lits d nl m l r =>
      have hok := hw.nodes id _ (Db.getElem?_node (Db.node_lt (by rw [hn]; intro h; cases h)))
      have hg := general_vals hw hn
      have hmax : ∀ v ∈ (db.node id).valsFrom 1, v ≤ m := fun v hv => by
        have := vals_le_max hw hv; rw [hn] at this; exact this
      rw [hn] at hok
      obtain ⟨h1, h2, h3, h4, h5, h6, h7⟩ := hok
      simp only [Node.maxVal]
      have hv : value db (fun _ => true) id = conVal db (fun _ => true) l + conVal db (fun _ => true) r := by
        rw [value_eq hw, hn]; rfl
      have hle : ∀ c, PlainCon db c → c.id < id → ∀ x ∈ TotDb.conVals db c, x ≤ conVal db (fun _ => true) c := by
        intro c hc hlt x hx
        rw [hc.conVals] at hx
        obtain ⟨y, hy, rfl⟩ := List.mem_map.1 hx
        unfold conVal
        rw [hc.map, ih c.id hlt]
        exact Nat.mul_le_mul_right _ (vals_le_max hw hy)
      apply Nat.le_antisymm
      · rcases (att_value hw (fun _ => true) id).mem_vals hw with h0 | h0
        · omega
        · exact hmax _ h0
      · rw [hv]
        have hm : m = 0 ∨ m ∈ lits.map (·.1) := by
          rw [h7]
          unfold lastVal
          rcases List.eq_nil_or_concat (lits.map (·.1)) with h0 | ⟨init, y, h0⟩
          · rw [h0]; exact Or.inl rfl
          · rw [List.concat_eq_append] at h0
            rw [h0]; right; simp
        rcases hm with hm | hm
        · omega
        · rcases (h6 m).1 hm with h' | h' | ⟨x, hx, y, hy, e⟩
          · have := hle l h3 h1 m h'; omega
          · have := hle r h4 h2 m h'; omega
          · have := hle l h3 h1 x hx
            have := hle r h4 h2 y hy
            omega

/-! ### Output literals by value -/

/-- Value `val` of the node has literal `l`, encoded with "if" semantics. -/
def HasVal (db : Db) (id val : Nat) (l : Lit) : Prop :=
  (db.node id = .leaf l ∧ val = 1) ∨ ∃ k s, (db.node id).outData k = some (val, .lit l (some s)) ∧ s.hasIf = true

theorem HasVal.ref {db db' : Db} (h : DbRef db db') {id val : Nat} {l : Lit} (hl : HasVal db id val l) :
    HasVal db' id val l := by
  rcases hl with ⟨h1, h2⟩ | ⟨k, s, h1, h2⟩
  · exact Or.inl ⟨h.leaf.2 h1, h2⟩
  · obtain ⟨d', e1, e2⟩ := (h.node id).outData_fwd h1
    obtain ⟨s', rfl⟩ := e2.keep l (some s) rfl
    cases s' with
    | none => exact absurd (e2.hasIf h2) (by simp [LitData.hasIf])
    | some t => exact Or.inr ⟨k, t, e1, e2.hasIf h2⟩

theorem HasVal.ext {dm : Prop} {L : List Lit} {db db' : Db} (h : ExtD dm L db db') {id val : Nat} {l : Lit}
    (hl : HasVal db id val l) : HasVal db' id val l := by
  have hid : id < db.nodes.length := by
    apply Db.node_lt
    intro hn
    rcases hl with ⟨h1, -⟩ | ⟨k, s, h1, -⟩ <;> rw [hn] at h1 <;> cases h1
  unfold HasVal
  rw [h.node hid]
  exact hl

theorem HasVal.if_ {db : Db} (hw : db.WF) {id val : Nat} {l : Lit} (hl : HasVal db id val l) {C : ClauseSet}
    (hC : SoundIf db C) {b : Asg} (hb : ClauseSet.sat b C) {T : Lit → Bool} (hT : ∀ x, T x = true → x.holds b = true)
    (hv : Att db T id val) : l.holds b = true := by
  rcases hl with ⟨h1, rfl⟩ | ⟨k, s, h1, h2⟩
  · have := hv.le hw
    rw [value_leaf hw h1] at this
    by_cases h : T l = true
    · exact hT l h
    · rw [if_neg h] at this; omega
  · exact hC id k val l (some s) h1 h2 b hb T hT (Or.inl hv)

theorem HasVal.strict {db : Db} (hw : db.WF) {id val : Nat} {l : Lit} (hl : HasVal db id val l) {b : Asg}
    (hb : Strict db b) : l.holds b = true ↔ val ≤ value db (trueLits b) id := by
  rcases hl with ⟨h1, rfl⟩ | ⟨k, s, h1, -⟩
  · rw [value_leaf hw h1]
    unfold trueLits
    by_cases h : l.holds b = true
    · simp [h]
    · simp [h]
  · exact hb id k val l ⟨_, h1⟩

theorem HasVal.varIn {db : Db} {id val : Nat} {l : Lit} (hl : HasVal db id val l) : VarIn db l.var := by
  rcases hl with ⟨h1, -⟩ | ⟨k, s, h1, -⟩
  · exact Or.inl ⟨id, l, h1, rfl⟩
  · exact Or.inr ⟨id, k, val, l, ⟨_, h1⟩, rfl⟩

theorem HasLit.val {db : Db} {id idx : Nat} {l : Lit} (h : HasLit db id idx .if_ l) : HasVal db id (idx + 1) l := by
  rcases h with ⟨h1, rfl⟩ | ⟨s, -, h1, h2, -⟩
  · exact Or.inl ⟨h1, rfl⟩
  · exact Or.inr ⟨idx, s, h1, h2 rfl⟩

/-! ### Adding clauses and marking outputs -/

section
variable {VM : Type} [ManageVars VM]

theorem step_clause {st : St VM} {c : Clause} (hsat : ∀ b, Strict st.db b → Clause.sat b c)
    (hvars : ∀ x ∈ c, VarIn st.db x.var) : Step st (addClause st c) := by
  refine ⟨DbRef.refl _, Nat.le_refl _, fun _ _ _ _ h => Or.inl h, fun h => h,
    ⟨[c], rfl, fun C h => h.mono fun x hx => List.mem_append_left _ hx,
      fun _ C h => h.mono fun x hx => List.mem_append_left _ hx, fun b hb x hx => ?_, fun x hx => ?_⟩⟩
  · simp only [List.mem_cons, List.not_mem_nil, or_false] at hx
    subst hx
    exact hsat b hb
  · simp only [List.mem_cons, List.not_mem_nil, or_false] at hx
    subst hx
    exact hvars

/-- The clause was added between the two states. -/
def Grown (a b : St VM) (c : Clause) : Prop := ∃ new, b.cls = a.cls ++ new ∧ c ∈ new

omit [ManageVars VM] in
theorem Grown.self (st : St VM) (c : Clause) : Grown st (addClause st c) c := ⟨[c], rfl, by simp⟩

theorem Grown.after {a b d : St VM} {c : Clause} (h : Grown a b c) (hs : Step b d) : Grown a d c := by
  obtain ⟨n1, e1, h1⟩ := h
  obtain ⟨n2, e2, -⟩ := hs.cls
  exact ⟨n1 ++ n2, by rw [e2, e1, List.append_assoc], List.mem_append_left _ h1⟩

theorem Grown.before {a b d : St VM} {c : Clause} (hs : Step a b) (h : Grown b d c) : Grown a d c := by
  obtain ⟨n1, e1, h1⟩ := h
  obtain ⟨n2, e2, -⟩ := hs.cls
  exact ⟨n2 ++ n1, by rw [e1, e2, List.append_assoc], List.mem_append_right _ h1⟩

/-- Marking an output with "if" semantics, justified by the clauses added since an earlier state. -/
theorem Step.mark {a b : St VM} {db' : Db} {id k v : Nat} {l : Lit} {s s' : Option Semantics} (hs : Step a b)
    (hw : a.db.WF) (h : OutUpd b.db db' id k v (.lit l s) (.lit l s'))
    (hIf : ∀ C, SoundIf b.db C → ∀ x, ClauseSet.sat x C → (∀ c, Grown a b c → Clause.sat x c) → ∀ T : Lit → Bool,
      (∀ y, T y = true → y.holds x = true) →
      (Att b.db T id v ∨ ((b.db.node id).isGeneral = false ∧ v ≤ value b.db T id)) → l.holds x = true)
    (hOnly : (LitData.lit l s').hasOnlyIf = true → (LitData.lit l s).hasOnlyIf = true) :
    Step a { b with db := db' } := by
  have hwb := hs.ref.wf hw
  have hout : ∀ {i k' v' : Nat} {x : Lit}, OutAt db' i k' v' x → OutAt b.db i k' v' x := by
    intro i k' v' x ho
    rcases h.outAt ho with ho | ⟨rfl, rfl, rfl, h4⟩
    · exact ho
    · simp only [LitData.lit?, Option.some.injEq] at h4
      subst h4
      exact ⟨s, h.old⟩
  obtain ⟨new, e, c1, c2, c3, c4⟩ := hs.cls
  refine ⟨hs.ref.trans h.ref, hs.used, fun i k' v' l ho => hs.fresh i k' v' l (hout ho), fun ha => ?_,
    ⟨new, e, fun C hC => ?_, fun hn C hC => ?_, fun x hx => ?_, c4.ref (fun _ _ => keep_of_ref) h.ref⟩⟩
  · have ha := hs.aux ha
    exact ⟨fun i x hx => ha.leaf i x (h.ref.leaf.1 hx), fun i k' v' x ho => ha.out i k' v' x (hout ho),
      fun i k' v' x j l' ho hl => ha.disj i k' v' x j l' (hout ho) (h.ref.leaf.1 hl),
      fun i k' v' i2 k2 v2 x ho ho2 => ha.inj i k' v' i2 k2 v2 x (hout ho) (hout ho2)⟩
  · intro i k' v' x t ho hi as hb T hT hv
    have hC' := c1 C hC
    simp only at ho hv
    rw [h.ref.value hwb T i, (h.ref.node i).isGeneral, h.ref.att hwb] at hv
    by_cases hik : i = id ∧ k' = k
    · obtain ⟨rfl, rfl⟩ := hik
      rw [h.new] at ho
      cases ho
      refine hIf (C ++ new) hC' as hb (fun c hc => ?_) T hT hv
      obtain ⟨n2, e2, hm⟩ := hc
      rw [e] at e2
      exact hb c (List.mem_append_right _ (by rw [List.append_cancel_left e2]; exact hm))
    · rw [h.other i k' (by
        by_cases h1 : i = id
        · exact Or.inr fun h2 => hik ⟨h1, h2⟩
        · exact Or.inl h1)] at ho
      exact hC' i k' v' x t ho hi as hb T hT hv
  · intro i k' v' x t ho hi as hb hl
    have hC' := c2 hn C hC
    simp only at ho ⊢
    rw [h.ref.value hwb]
    by_cases hik : i = id ∧ k' = k
    · obtain ⟨rfl, rfl⟩ := hik
      rw [h.new] at ho
      cases ho
      exact hC' i k' v l s h.old (hOnly hi) as hb hl
    · rw [h.other i k' (by
        by_cases h1 : i = id
        · exact Or.inr fun h2 => hik ⟨h1, h2⟩
        · exact Or.inl h1)] at ho
      exact hC' i k' v' x t ho hi as hb hl
  · exact c3 x (hx.of_ref (fun _ _ => keep_of_ref) h.ref hwb)

/-! ### The recursion -/

/-- The specification of a weighted define function on nodes below a bound. -/
def DefW (f : St VM → Nat → Nat → Option (Option Lit × St VM)) (bound : Nat) : Prop :=
  ∀ (st : St VM) (id val : Nat), st.db.WF → id < bound →
    ∃ r st', f st id val = some (r, st') ∧ Step st st' ∧ (∀ j, id < j → st'.db.node j = st.db.node j) ∧
      (val ∈ (st.db.node id).valsFrom 1 → ∃ l, r = some l ∧ HasVal st'.db id val l) ∧
      (val ∉ (st.db.node id).valsFrom 1 → r = none) ∧
      Adds st.db st'.db id (fun k => ∃ d, (st.db.node id).outData k = some (val, d)) .if_

/-- The situation in which clauses for an output of a general node are added. -/
structure Ctx (db : Db) (id k val : Nat) (olit : Lit) (lc rc : NodeCon) : Prop where
  wf : db.WF
  left : PlainCon db lc
  right : PlainCon db rc
  value : ∀ T, TotDb.value db T id = conVal db T lc + conVal db T rc
  out : OutAt db id k val olit

theorem Ctx.ref {db db' : Db} {id k val : Nat} {olit : Lit} {lc rc : NodeCon} (h : Ctx db id k val olit lc rc)
    (hr : DbRef db db') : Ctx db' id k val olit lc rc :=
  ⟨hr.wf h.wf, hr.plain h.left, hr.plain h.right,
    fun T => by rw [hr.value h.wf, hr.conVal h.wf, hr.conVal h.wf, h.value],
    h.out.ref (fun _ _ => keep_of_ref) hr⟩

theorem Ctx.olit {db : Db} {id k val : Nat} {olit : Lit} {lc rc : NodeCon} (h : Ctx db id k val olit lc rc) :
    VarIn db olit.var := Or.inr ⟨id, k, val, olit, h.out, rfl⟩

theorem propagateVal_spec {f : St VM → Nat → Nat → Option (Option Lit × St VM)} {bound : Nat} (hf : DefW f bound)
    {st : St VM} {id k val : Nat} {olit : Lit} {lc rc c : NodeCon} (hx : Ctx st.db id k val olit lc rc)
    (hc : c = lc ∨ c = rc) (hcb : c.id < bound) :
    ∃ st', propagateVal f c val olit st = some st' ∧ Step st st' ∧ (∀ j, bound ≤ j → st'.db.node j = st.db.node j) ∧
      ∀ u ∈ (st.db.node c.id).valsFrom 1, c.map u = val →
        ∃ l, HasVal st'.db c.id u l ∧ Grown st st' (Atomics.litImplLit l olit) := by
  have hp : PlainCon st.db c := by rcases hc with rfl | rfl; exact hx.left; exact hx.right
  have hmv : ∀ u, c.map u = val → val % c.multiplier = 0 ∧ c.revMap val = u := fun u hu => by
    rw [hp.map] at hu
    subst hu
    exact ⟨Nat.mul_mod_left _ _, by rw [hp.revMap, Nat.mul_div_cancel _ hp.mult]⟩
  unfold propagateVal
  by_cases h : (c.isPossible val && decide (c.revMap val ≤ (st.db.node c.id).maxVal)) = true
  · rw [if_pos h]
    simp only [Bool.and_eq_true, decide_eq_true_eq] at h
    obtain ⟨r, st1, e1, s1, n1, y1, z1, -⟩ := hf st c.id (c.revMap val) hx.wf hcb
    by_cases hm : c.revMap val ∈ (st.db.node c.id).valsFrom 1
    · obtain ⟨l, rfl, hl⟩ := y1 hm
      have hx1 := hx.ref s1.ref
      have hcv : c.map (c.revMap val) = val := by
        rw [hp.map, hp.revMap]
        exact Nat.div_mul_cancel (Nat.dvd_of_mod_eq_zero ((hp.isPossible val).1 h.1))
      refine ⟨addClause st1 (Atomics.litImplLit l olit), by rw [e1],
        s1.trans hx.wf (step_clause (fun b hb => ?_) fun x hxm => ?_), fun j hj => n1 j (by omega), fun u hu he => ?_⟩
      · rw [Am1.sat_litImplLit, hl.strict hx1.wf hb]
        intro hle
        refine (hb id k val olit hx1.out).2 ?_
        rw [hx1.value]
        have h2 : val ≤ conVal st1.db (trueLits b) c := by
          have := c.map_mono hle
          rw [hcv] at this
          exact this
        rcases hc with rfl | rfl <;> omega
      · simp only [Atomics.litImplLit, List.mem_cons, List.not_mem_nil, or_false] at hxm
        rcases hxm with rfl | rfl
        · rw [Lit.var_neg]; exact hl.varIn
        · exact hx1.olit
      · obtain ⟨-, rfl⟩ := hmv u he
        exact ⟨l, hl, Grown.before s1 (Grown.self _ _)⟩
    · have hr := z1 hm
      subst hr
      refine ⟨st1, by rw [e1], s1, fun j hj => n1 j (by omega), fun u hu he => ?_⟩
      obtain ⟨-, rfl⟩ := hmv u he
      exact absurd hu hm
  · rw [if_neg h]
    refine ⟨st, rfl, Step.refl _, fun _ _ => rfl, fun u hu he => ?_⟩
    exfalso
    apply h
    obtain ⟨h1, h2⟩ := hmv u he
    simp only [Bool.and_eq_true, decide_eq_true_eq]
    exact ⟨(hp.isPossible val).2 h1, by rw [h2]; exact vals_le_max hx.wf hu⟩

theorem sumLoop_spec {f : St VM → Nat → Nat → Option (Option Lit × St VM)} {bound : Nat} (hf : DefW f bound)
    {id k val : Nat} {olit : Lit} {lc rc : NodeCon} (hlb : lc.id < bound) (hrb : rc.id < bound) {rmax : Nat} :
    ∀ (lvals : List Nat) (st : St VM), Ctx st.db id k val olit lc rc → rmax = (st.db.node rc.id).maxVal →
    (∀ lv ∈ lvals, lv ∈ (st.db.node lc.id).valsFrom 1 ∧ lc.map lv < val) →
    ∃ st', sumLoop f lc rc rmax val olit lvals st = some st' ∧ Step st st' ∧
      (∀ j, bound ≤ j → st'.db.node j = st.db.node j) ∧
      ∀ lv ∈ lvals, ∀ u ∈ (st.db.node rc.id).valsFrom 1, lc.map lv + rc.map u = val →
        ∃ l r, HasVal st'.db lc.id lv l ∧ HasVal st'.db rc.id u r ∧ Grown st st' (Atomics.cubeImplLit [l, r] olit) := by
  intro lvals
  induction lvals with
  | nil => intro st _ _ _; exact ⟨st, rfl, Step.refl _, fun _ _ => rfl, by simp⟩
  | cons lv rest ih =>
    intro st hx hmax hlv
    obtain ⟨hlm, hlt⟩ := hlv lv (by simp)
    have hp := hx.right
    have hmv : ∀ u, lc.map lv + rc.map u = val → (val - lc.map lv) % rc.multiplier = 0 ∧
        rc.revMap (val - lc.map lv) = u := fun u hu => by
      have hu : val - lc.map lv = u * rc.multiplier := by rw [hp.map] at hu; omega
      rw [hu]
      exact ⟨Nat.mul_mod_left _ _, by rw [hp.revMap, Nat.mul_div_cancel _ hp.mult]⟩
    have next : ∀ (st1 : St VM), Step st st1 → (∀ j, bound ≤ j → st1.db.node j = st.db.node j) →
        (∀ u ∈ (st.db.node rc.id).valsFrom 1, lc.map lv + rc.map u = val →
          ∃ l r, HasVal st1.db lc.id lv l ∧ HasVal st1.db rc.id u r ∧ Grown st st1 (Atomics.cubeImplLit [l, r] olit)) →
        ∃ st', sumLoop f lc rc rmax val olit rest st1 = some st' ∧ Step st st' ∧
          (∀ j, bound ≤ j → st'.db.node j = st.db.node j) ∧
          ∀ lw ∈ lv :: rest, ∀ u ∈ (st.db.node rc.id).valsFrom 1, lc.map lw + rc.map u = val →
            ∃ l r, HasVal st'.db lc.id lw l ∧ HasVal st'.db rc.id u r ∧
              Grown st st' (Atomics.cubeImplLit [l, r] olit) := by
      intro st1 s1 n1 h1
      obtain ⟨st2, e2, s2, n2, h2⟩ := ih st1 (hx.ref s1.ref) (by rw [(s1.ref.node rc.id).maxVal]; exact hmax)
        fun lw hlw => by
          rw [(s1.ref.node lc.id).valsFrom]
          exact hlv lw (by simp [hlw])
      refine ⟨st2, e2, s1.trans hx.wf s2, fun j hj => by rw [n2 j hj, n1 j hj], fun lw hlw u hu he => ?_⟩
      rcases List.mem_cons.1 hlw with rfl | hlw
      · obtain ⟨l, r, g1, g2, g3⟩ := h1 u hu he
        exact ⟨l, r, g1.ref s2.ref, g2.ref s2.ref, g3.after s2⟩
      · obtain ⟨l, r, g1, g2, g3⟩ := h2 lw hlw u (by rw [(s1.ref.node rc.id).valsFrom]; exact hu) he
        exact ⟨l, r, g1, g2, Grown.before s1 g3⟩
    simp only [sumLoop]
    by_cases h : (rc.isPossible (val - lc.map lv) && decide (rc.revMap (val - lc.map lv) ≤ rmax)) = true
    · rw [if_pos h]
      simp only [Bool.and_eq_true, decide_eq_true_eq] at h
      obtain ⟨r, st1, e1, s1, n1, y1, z1, -⟩ := hf st rc.id (rc.revMap (val - lc.map lv)) hx.wf hrb
      have hx1 := hx.ref s1.ref
      by_cases hm : rc.revMap (val - lc.map lv) ∈ (st.db.node rc.id).valsFrom 1
      · obtain ⟨rlit, rfl, hr⟩ := y1 hm
        obtain ⟨r2, st2, e2, s2, n2, y2, -, -⟩ := hf st1 lc.id lv hx1.wf hlb
        obtain ⟨llit, rfl, hl⟩ := y2 (by rw [(s1.ref.node lc.id).valsFrom]; exact hlm)
        have hx2 := hx1.ref s2.ref
        have hr2 := hr.ref s2.ref
        have s12 := s1.trans hx.wf s2
        have hcv : rc.map (rc.revMap (val - lc.map lv)) = val - lc.map lv := by
          rw [hp.map, hp.revMap]
          exact Nat.div_mul_cancel (Nat.dvd_of_mod_eq_zero ((hp.isPossible _).1 h.1))
        have s3 : Step st2 (addClause st2 (Atomics.cubeImplLit [llit, rlit] olit)) := by
          refine step_clause (fun b hb => ?_) fun x hxm => ?_
          · rw [sat_cubeImplLit]
            intro hall
            have g1 := (hl.strict hx2.wf hb).1 (hall llit (by simp))
            have g2 := (hr2.strict hx2.wf hb).1 (hall rlit (by simp))
            refine (hb id k val olit hx2.out).2 ?_
            rw [hx2.value]
            have m1 := lc.map_mono g1
            have m2 := rc.map_mono g2
            rw [hcv] at m2
            unfold conVal
            omega
          · rcases mem_cubeImplLit hxm with ⟨y, hy, e⟩ | rfl
            · rw [← e]
              simp only [List.mem_cons, List.not_mem_nil, or_false] at hy
              rcases hy with rfl | rfl
              · exact hl.varIn
              · exact hr2.varIn
            · exact hx2.olit
        rw [e1]
        simp only
        rw [e2]
        simp only
        refine next _ (s12.trans hx.wf s3) (fun j hj => ?_) fun u hu he => ?_
        · show st2.db.node j = _
          rw [n2 j (by omega), n1 j (by omega)]
        · obtain ⟨-, rfl⟩ := hmv u he
          exact ⟨llit, rlit, hl, hr2, Grown.before s12 (Grown.self _ _)⟩
      · have hr := z1 hm
        subst hr
        rw [e1]
        refine next st1 s1 (fun j hj => n1 j (by omega)) fun u hu he => ?_
        obtain ⟨-, rfl⟩ := hmv u he
        exact absurd hu hm
    · rw [if_neg h]
      refine next st (Step.refl _) (fun _ _ => rfl) fun u hu he => ?_
      exfalso
      apply h
      obtain ⟨h1, h2⟩ := hmv u he
      simp only [Bool.and_eq_true, decide_eq_true_eq]
      exact ⟨(hp.isPossible _).2 h1, by rw [h2, hmax]; exact vals_le_max hx.wf hu⟩

theorem outLit_of_outData {db : Db} {id k v : Nat} {d : LitData} (h : (db.node id).outData k = some (v, d)) :
    db.outLit id k = some d := by
  unfold Db.outLit
  cases hn : db.node id with
  | leaf => rw [hn] at h; cases h
  | dummy => rw [hn] at h; cases h
  | unit lits =>
    rw [hn] at h
    simp only [Node.outData, Option.map_eq_some_iff] at h
    obtain ⟨x, hx, e⟩ := h
    cases e
    exact hx
  | general lits =>
    rw [hn] at h
    simp only [Node.outData] at h
    simp [h]

theorem weightedOlit_spec [LawfulVM VM] {st : St VM} (hw : st.db.WF) {id k v : Nat} {d : LitData}
    (hd : (st.db.node id).outData k = some (v, d)) :
    ∃ l s st1, weightedOlit st id k = some (l, st1) ∧ Step st st1 ∧
      (st1.db.node id).outData k = some (v, .lit l s) ∧ (d = .lit l s ∨ (d = .none ∧ s = none)) ∧
      (∀ j, j ≠ id → st1.db.node j = st.db.node j) ∧ ∀ Q sem, Adds st.db st1.db id Q sem := by
  have hu := outLit_of_outData hd
  unfold weightedOlit
  match hdd : d with
  | .lit l s =>
    exact ⟨l, s, st, by rw [hu], Step.refl _, hd, Or.inl rfl, fun _ _ => rfl, fun _ _ => Adds.of_node rfl _ _⟩
  | .none =>
    have hup := setOut_upd hd (LitRef.none (Lit.pos (ManageVars.newVar st.vm).1))
    refine ⟨Lit.pos (ManageVars.newVar st.vm).1, none, _, by rw [hu], step_alloc hup hw, hup.new, Or.inr ⟨rfl, rfl⟩,
      fun j hj => ?_, fun _ _ => hup.adds (fun h => by cases h) (fun h => by cases h) id⟩
    simp only
    rw [setOut_node, if_neg hj]

theorem mem_valsRange {n : Node} {lo hi v : Nat} (hlo : 1 ≤ lo) : v ∈ n.valsRange lo hi ↔ v ∈ n.valsFrom 1 ∧ lo ≤ v ∧ v < hi := by
  cases n with
  | leaf l =>
    simp only [Node.valsRange, Node.valsFrom]
    by_cases h : lo ≤ 1 ∧ 1 < hi
    · simp [h]; omega
    · simp [h]; omega
  | dummy => simp [Node.valsRange, Node.valsFrom]
  | unit lits =>
    simp only [Node.valsRange, Node.valsFrom, List.mem_range'_1]
    omega
  | general lits =>
    simp only [Node.valsRange, Node.valsFrom, List.mem_filter, Bool.and_eq_true, decide_eq_true_eq]
    constructor
    · rintro ⟨h1, h2, h3⟩; exact ⟨⟨h1, by omega⟩, h2, h3⟩
    · rintro ⟨⟨h1, _⟩, h2, h3⟩; exact ⟨h1, h2, h3⟩

theorem defineWeighted_spec [LawfulVM VM] :
    ∀ fuel, DefW (fun (st : St VM) id val => defineWeighted fuel st id val) fuel := by
  intro fuel
  induction fuel with
  | zero => intro st id val _ h; omega
  | succ fuel ih =>
    intro st id val hw hid
    simp only [defineWeighted]
    cases hn : st.db.node id with
    | dummy =>
      exact ⟨none, st, rfl, Step.refl _, fun _ _ => rfl, fun h => (by cases h), fun _ => rfl, Adds.of_node rfl _ _⟩
    | leaf l =>
      simp only
      by_cases h : val = 1
      · subst h
        exact ⟨some l, st, by simp, Step.refl _, fun _ _ => rfl, fun _ => ⟨l, rfl, Or.inl ⟨hn, rfl⟩⟩,
          fun h => absurd (by simp [Node.valsFrom]) h, Adds.of_node rfl _ _⟩
      · refine ⟨none, st, by simp [h], Step.refl _, fun _ _ => rfl, fun h' => ?_, fun _ => rfl, Adds.of_node rfl _ _⟩
        simp [Node.valsFrom] at h'
        exact absurd h' h
    | unit lits dp nl lc rc =>
      simp only
      by_cases h : val > lits.length ∨ val = 0
      · rw [if_pos h]
        refine ⟨none, st, rfl, Step.refl _, fun _ _ => rfl, fun h' => ?_, fun _ => rfl, Adds.of_node rfl _ _⟩
        simp only [Node.valsFrom, List.mem_range'_1] at h'
        omega
      · rw [if_neg h]
        obtain ⟨l, st1, e1, s1, l1, n1, a1⟩ := defineUnweighted_spec (id + 1) st id (val - 1) .if_ hw
          (Nat.lt_succ_self _) (by rw [hn]; rfl) (by rw [hn]; simp only [Node.len]; omega)
        refine ⟨some l, st1, by unfold define; simp only at e1; rw [e1], s1, n1, fun _ => ⟨l, rfl, ?_⟩, fun h' => ?_, ?_⟩
        · have := l1.val
          rw [show val - 1 + 1 = val by omega] at this
          exact this
        · simp only [Node.valsFrom, List.mem_range'_1] at h'
          omega
        · refine a1.mono fun k hk => ?_
          subst hk
          have : val - 1 < lits.length := by omega
          refine ⟨lits[val - 1], ?_⟩
          simp only [Node.outData, List.getElem?_eq_getElem this, Option.map_some]
          rw [show val - 1 + 1 = val by omega]
    | general lits dp nl m lc rc =>
      simp only
      have hlt : id < st.db.nodes.length := Db.node_lt (by rw [hn]; intro h; cases h)
      have hgv := general_vals hw hn val
      rw [hn] at hgv
      cases hk : valIdx lits val with
      | none =>
        exact ⟨none, st, rfl, Step.refl _, fun _ _ => rfl, fun h => absurd (hgv.1 h) (valIdx_none hk), fun _ => rfl,
          Adds.of_node rfl _ _⟩
      | some k =>
        simp only
        obtain ⟨d, hd⟩ := valIdx_some hk
        have hmem : val ∈ (Node.general lits dp nl m lc rc).valsFrom 1 :=
          hgv.2 (List.mem_map.2 ⟨_, List.mem_of_getElem? hd, rfl⟩)
        have hpos : 0 < val := valsFrom_ge hmem
        have hout : (st.db.node id).outData k = some (val, d) := by rw [hn]; exact hd
        rw [outLit_of_outData hout]
        simp only
        by_cases hif : d.hasIf = true
        · obtain ⟨l, s, rfl⟩ : ∃ l s, d = .lit l (some s) := by
            match d, hif with
            | .lit l (some s), _ => exact ⟨l, s, rfl⟩
          simp only [hif, LitData.lit?]
          exact ⟨some l, st, rfl, Step.refl _, fun _ _ => rfl, fun _ => ⟨l, rfl, Or.inr ⟨k, s, hout, hif⟩⟩,
            fun h => absurd hmem h, Adds.of_node rfl _ _⟩
        · have hif : d.hasIf = false := by simpa using hif
          simp only [hif]
          have hok := hw.nodes id _ (Db.getElem?_node hlt)
          rw [hn] at hok
          obtain ⟨o1, o2, o3, o4, o5, o6, o7⟩ := hok
          obtain ⟨olit, s, st1, e1, s1, d1, -, n1, a1⟩ := weightedOlit_spec hw hout
          rw [e1]
          simp only
          have hw1 := s1.ref.wf hw
          have hx1 : Ctx st1.db id k val olit lc rc :=
            ⟨hw1, s1.ref.plain o3, s1.ref.plain o4, fun T => by
              rw [value_eq hw1, s1.ref.shape, hn]; rfl, ⟨s, d1⟩⟩
          have hl := hx1.left
          -- the values of the left child
          have hsv : ∀ lv, lv ∈ sumVals st1.db lc val ↔ lv ∈ (st1.db.node lc.id).valsFrom 1 ∧ lc.map lv < val := by
            intro lv
            unfold sumVals
            rw [hl.offset, Nat.zero_add]
            by_cases h : lc.map 1 < val
            · rw [if_pos h, mem_valsRange (Nat.le_refl _), hl.roundUp]
              constructor
              · rintro ⟨g1, -, g2⟩; exact ⟨g1, g2⟩
              · rintro ⟨g1, g2⟩; exact ⟨g1, valsFrom_ge g1, g2⟩
            · rw [if_neg h]
              simp only [List.not_mem_nil, false_iff, not_and]
              intro g1 g2
              have := lc.map_mono (valsFrom_ge g1)
              omega
          have hf : DefW (fun (st : St VM) i v => defineWeighted fuel st i v) id := fun st i v h1 h2 => ih st i v h1 (by omega)
          obtain ⟨st2, e2, s2, n2, h2⟩ := sumLoop_spec hf o1 o2 (sumVals st1.db lc val) st1 hx1 rfl
            fun lv h => (hsv lv).1 h
          rw [e2]
          simp only
          have hx2 := hx1.ref s2.ref
          obtain ⟨st3, e3, s3, n3, h3⟩ := propagateVal_spec hf hx2 (Or.inl rfl) o1
          rw [e3]
          simp only
          have hx3 := hx2.ref s3.ref
          obtain ⟨st4, e4, s4, n4, h4⟩ := propagateVal_spec hf hx3 (Or.inr rfl) o2
          rw [e4]
          simp only
          have hx4 := hx3.ref s4.ref
          have s34 := s3.trans hx2.wf s4
          have s14 := (s2.trans hx1.wf s34)
          have hd4 : (st4.db.node id).outData k = some (val, .lit olit s) := by
            rw [n4 id (Nat.le_refl _), n3 id (Nat.le_refl _), n2 id (Nat.le_refl _)]; exact d1
          rw [outLit_of_outData hd4]
          simp only
          obtain ⟨t, ht, tIf, tOnly⟩ := addSemantics_lit olit s .if_
          have hup := setOut_upd hd4 (LitRef.add olit s .if_)
          rw [ht] at hup ⊢
          have hmark : Step st1 { st4 with db := st4.db.setOut id k (.lit olit (some t)) } := by
            refine s14.mark hw1 hup ?_ ?_
            · intro C hC x hxC hgr T hT hv
              have hg : (st4.db.node id).isGeneral = true := by
                rw [(s14.ref.node id).isGeneral, (s1.ref.node id).isGeneral, hn]; rfl
              have hv : Att st4.db T id val := by
                rcases hv with h | h
                · exact h
                · rw [hg] at h; cases h.1
              have hsh : (st4.db.node id).shape = .inner lc rc := by
                rw [s14.ref.shape, s1.ref.shape, hn]; rfl
              have hw4 := hx4.wf
              have vf4 : ∀ i, (st4.db.node i).valsFrom 1 = (st1.db.node i).valsFrom 1 := fun i =>
                (s14.ref.node i).valsFrom 1
              generalize hval : val = vv at hv
              cases hv with
              | zero => omega
              | leaf _ l h => rw [h] at hsh; cases hsh
              | inner _ lc' rc' u w hs a b =>
                rw [hsh] at hs
                cases hs
                rcases a.mem_vals hw4 with hu | hu
                · subst hu
                  rw [lc.map_zero, Nat.zero_add] at hval
                  rcases b.mem_vals hw4 with hw0 | hwm
                  · subst hw0
                    rw [rc.map_zero] at hval
                    omega
                  · obtain ⟨l, g1, g2⟩ := h4 w (by rw [← (s4.ref.node rc.id).valsFrom]; exact hwm) hval.symm
                    have := hgr _ (Grown.before (s2.trans hx1.wf s3) g2)
                    rw [Am1.sat_litImplLit] at this
                    exact this (g1.if_ hw4 hC hxC hT b)
                · rcases b.mem_vals hw4 with hw0 | hwm
                  · subst hw0
                    rw [rc.map_zero, Nat.add_zero] at hval
                    obtain ⟨l, g1, g2⟩ := h3 u (by rw [← (s34.ref.node lc.id).valsFrom]; exact hu) hval.symm
                    have := hgr _ (Grown.before s2 (g2.after s4))
                    rw [Am1.sat_litImplLit] at this
                    exact this ((g1.ref s4.ref).if_ hw4 hC hxC hT a)
                  · have hwp : 0 < rc.map w := by
                      rw [hx4.right.map]; exact Nat.mul_pos (valsFrom_ge hwm) hx4.right.mult
                    rw [vf4] at hu hwm
                    obtain ⟨l, r, g1, g2, g3⟩ := h2 u ((hsv u).2 ⟨hu, by omega⟩) w hwm hval.symm
                    have := hgr _ (g3.after s34)
                    rw [sat_cubeImplLit] at this
                    refine this fun y hy => ?_
                    simp only [List.mem_cons, List.not_mem_nil, or_false] at hy
                    rcases hy with rfl | rfl
                    · exact (g1.ref s34.ref).if_ hw4 hC hxC hT a
                    · exact (g2.ref s34.ref).if_ hw4 hC hxC hT b
            · intro h
              rcases tOnly.1 h with h | h
              · exact h
              · cases h
          refine ⟨some olit, _, rfl, s1.trans hw hmark, fun j hj => ?_, fun _ => ⟨olit, rfl, Or.inr ⟨k, t, hup.new, tIf.2 (Or.inr rfl)⟩⟩,
            fun h => absurd hmem h, ?_⟩
          · simp only
            rw [setOut_node, if_neg (by omega), n4 j (by omega), n3 j (by omega), n2 j (by omega), n1 j (by omega)]
          · refine (a1 _ _).trans (Adds.trans (b := st4.db) (Adds.of_node ?_ _ _) ?_)
            · rw [n4 id (Nat.le_refl _), n3 id (Nat.le_refl _), n2 id (Nat.le_refl _)]
            · exact hup.adds (fun h => (tIf.1 h).imp (fun h => h) fun h => ⟨⟨d, hd⟩, h⟩)
                (fun h => (tOnly.1 h).imp (fun h => h) fun h => by cases h) id

theorem defineVals_spec [LawfulVM VM] (id : Nat) : ∀ (vals : List Nat) (st : St VM), st.db.WF →
    (∀ v ∈ vals, v ∈ (st.db.node id).valsFrom 1) →
    ∃ st', defineVals st id vals = some st' ∧ Step st st' ∧ (∀ v ∈ vals, ∃ l, HasVal st'.db id v l) ∧
      (∀ j, id < j → st'.db.node j = st.db.node j) ∧
      Adds st.db st'.db id (fun k => ∃ v d, v ∈ vals ∧ (st.db.node id).outData k = some (v, d)) .if_ := by
  intro vals
  induction vals with
  | nil => intro st _ _; exact ⟨st, rfl, Step.refl _, by simp, fun _ _ => rfl, Adds.of_node rfl _ _⟩
  | cons v rest ih =>
    intro st hw h
    obtain ⟨r, st1, e1, s1, n1, y1, -, a1⟩ := defineWeighted_spec (id + 1) st id v hw (Nat.lt_succ_self _)
    obtain ⟨l, rfl, hl⟩ := y1 (h v (by simp))
    obtain ⟨st2, e2, s2, h2, n2, a2⟩ := ih st1 (s1.ref.wf hw) fun w hw' => by
      rw [(s1.ref.node id).valsFrom]; exact h w (by simp [hw'])
    refine ⟨st2, by simp only [defineVals, e1, e2], s1.trans hw s2, fun w hw' => ?_,
      fun j hj => by rw [n2 j hj, n1 j hj], (a1.mono fun k hk => ?_).trans (a2.mono fun k hk => ?_)⟩
    · rcases List.mem_cons.1 hw' with rfl | hw'
      · exact ⟨l, hl.ref s2.ref⟩
      · exact h2 w hw'
    · obtain ⟨d, hd⟩ := hk; exact ⟨v, d, by simp, hd⟩
    · obtain ⟨w, d, hw', hd⟩ := hk
      obtain ⟨d', hd', -⟩ := (s1.ref.node id).outData_bwd hd
      exact ⟨w, d', by simp [hw'], hd'⟩
end

end TotDb
end RustSat
