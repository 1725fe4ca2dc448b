import Verif.Lemmas.TotDb
import Verif.Lemmas.VarManager
/-
Updating one output of a node, children of unit nodes, `define_unweighted`.
-/
namespace RustSat
namespace TotDb

/-- The database `db'` differs from `db` in the data of one output only. -/
structure OutUpd (db db' : Db) (id k v : Nat) (d d' : LitData) : Prop where
  ref : DbRef db db'
  old : (db.node id).outData k = some (v, d)
  new : (db'.node id).outData k = some (v, d')
  other : ∀ i k', i ≠ id ∨ k' ≠ k → (db'.node i).outData k' = (db.node i).outData k'

theorem OutUpd.outAt {db db' : Db} {id k v : Nat} {d d' : LitData} (h : OutUpd db db' id k v d d')
    {i k' v' : Nat} {l : Lit} (ho : OutAt db' i k' v' l) :
    OutAt db i k' v' l ∨ (i = id ∧ k' = k ∧ v' = v ∧ d'.lit? = some l) := by
  obtain ⟨s, hs⟩ := ho
  by_cases hik : i = id ∧ k' = k
  · obtain ⟨rfl, rfl⟩ := hik
    rw [h.new] at hs
    cases hs
    exact Or.inr ⟨rfl, rfl, rfl, rfl⟩
  · rw [h.other i k' (by
      by_cases h1 : i = id
      · exact Or.inr fun h2 => hik ⟨h1, h2⟩
      · exact Or.inl h1)] at hs
    exact Or.inl ⟨s, hs⟩

section
variable {VM : Type} [ManageVars VM]

/-- Allocating a literal for an output. -/
theorem step_alloc [LawfulVM VM] {st : St VM} {db' : Db} {id k v : Nat}
    (h : OutUpd st.db db' id k v .none (LitData.newLit (Lit.pos (ManageVars.newVar st.vm).1))) (hw : st.db.WF) :
    Step st { st with db := db', vm := (ManageVars.newVar st.vm).2 } := by
  have e1 := LawfulVM.newVar_fst st.vm
  have e2 := LawfulVM.newVar_snd st.vm
  have hout : ∀ {i k' v' : Nat} {l : Lit}, OutAt db' i k' v' l →
      OutAt st.db i k' v' l ∨ (i = id ∧ k' = k ∧ v' = v ∧ l = Lit.pos (ManageVars.nUsed st.vm)) := by
    intro i k' v' l ho
    rcases h.outAt ho with ho | ⟨h1, h2, h3, h4⟩
    · exact Or.inl ho
    · simp only [LitData.newLit, LitData.lit?, Option.some.injEq, e1] at h4
      exact Or.inr ⟨h1, h2, h3, h4.symm⟩
  refine ⟨h.ref, by simp only [e2]; omega, fun i k' v' l ho => ?_, fun ha => ⟨?_, ?_, ?_, ?_⟩,
    ⟨[], by simp, fun C hC => ?_, fun _ C hC => ?_, fun b _ => by simp, by intro c hc; cases hc⟩⟩
  · rcases hout ho with ho | ⟨_, _, _, rfl⟩
    · exact Or.inl ho
    · simp only [e2, Lit.var_pos]; right; omega
  · intro i l hl
    have := ha.leaf i l (h.ref.leaf.1 hl)
    simp only [e2]; omega
  · intro i k' v' l ho
    rcases hout ho with ho | ⟨_, _, _, rfl⟩
    · have := ha.out i k' v' l ho
      simp only [e2]; exact ⟨this.1, by omega⟩
    · simp only [e2, Lit.var_pos, true_and]; omega
  · intro i k' v' l j l' ho hl
    have hl' := h.ref.leaf.1 hl
    rcases hout ho with ho | ⟨_, _, _, rfl⟩
    · exact ha.disj i k' v' l j l' ho hl'
    · have := ha.leaf j l' hl'
      rw [Lit.var_pos]; omega
  · intro i k' v' i2 k2 v2 l ho ho2
    rcases hout ho with ho | ⟨r1, r2, _, hl⟩ <;> rcases hout ho2 with ho2 | ⟨q1, q2, _, hl2⟩
    · exact ha.inj i k' v' i2 k2 v2 l ho ho2
    · have := (ha.out _ _ _ _ ho).2
      rw [hl2, Lit.var_pos] at this; omega
    · have := (ha.out _ _ _ _ ho2).2
      rw [hl, Lit.var_pos] at this; omega
    · exact ⟨r1.trans q1.symm, r2.trans q2.symm⟩
  · rw [List.append_nil]
    intro i k' v' l s ho hi b hb T hT hv
    have hval := h.ref.value hw T i
    simp only at ho hv
    rw [hval, (h.ref.node i).isGeneral, h.ref.att hw] at hv
    by_cases hik : i = id ∧ k' = k
    · obtain ⟨rfl, rfl⟩ := hik
      rw [h.new] at ho
      cases ho
      simp [LitData.hasIf] at hi
    · rw [h.other i k' (by
        by_cases h1 : i = id
        · exact Or.inr fun h2 => hik ⟨h1, h2⟩
        · exact Or.inl h1)] at ho
      exact hC i k' v' l s ho hi b hb T hT hv
  · rw [List.append_nil]
    intro i k' v' l s ho hi b hb hl
    have hval := h.ref.value hw (trueLits b) i
    simp only at ho ⊢
    rw [hval]
    by_cases hik : i = id ∧ k' = k
    · obtain ⟨rfl, rfl⟩ := hik
      rw [h.new] at ho
      cases ho
      simp [LitData.hasOnlyIf] at hi
    · rw [h.other i k' (by
        by_cases h1 : i = id
        · exact Or.inr fun h2 => hik ⟨h1, h2⟩
        · exact Or.inl h1)] at ho
      exact hC i k' v' l s ho hi b hb hl

/-- Marking an output as encoded after adding clauses. -/
theorem step_mark {st : St VM} {db' : Db} {id k v : Nat} {l : Lit} {s s' : Option Semantics} {new : ClauseSet}
    (h : OutUpd st.db db' id k v (.lit l s) (.lit l s')) (hw : st.db.WF)
    (hIf : (LitData.lit l s').hasIf = true → (LitData.lit l s).hasIf = false → ∀ C, SoundIf st.db C →
      ∀ b, ClauseSet.sat b (C ++ new) → ∀ T : Lit → Bool, (∀ x, T x = true → x.holds b = true) →
      (Att st.db T id v ∨ ((st.db.node id).isGeneral = false ∧ v ≤ value st.db T id)) → l.holds b = true)
    (hOnly : NoDummy st.db → (LitData.lit l s').hasOnlyIf = true → (LitData.lit l s).hasOnlyIf = false →
      ∀ C, SoundOnlyIf st.db C → ∀ b, ClauseSet.sat b (C ++ new) → l.holds b = true →
      v ≤ value st.db (trueLits b) id)
    (hsat : ∀ b, Strict st.db b → ClauseSet.sat b new) (hvars : VarsOK st.db new) :
    Step st { st with db := db', cls := st.cls ++ new } := by
  have hout : ∀ {i k' v' : Nat} {x : Lit}, OutAt db' i k' v' x → OutAt st.db i k' v' x := by
    intro i k' v' x ho
    rcases h.outAt ho with ho | ⟨rfl, rfl, rfl, h4⟩
    · exact ho
    · simp only [LitData.lit?, Option.some.injEq] at h4
      subst h4
      exact ⟨s, h.old⟩
  refine ⟨h.ref, Nat.le_refl _, fun i k' v' l ho => Or.inl (hout ho), fun ha => ⟨?_, ?_, ?_, ?_⟩,
    ⟨new, rfl, fun C hC => ?_, fun hn C hC => ?_, fun b hb => ?_, hvars.ref (fun _ _ => keep_of_ref) h.ref⟩⟩
  · exact fun i x hx => ha.leaf i x (h.ref.leaf.1 hx)
  · exact fun i k' v' x ho => ha.out i k' v' x (hout ho)
  · exact fun i k' v' x j l' ho hl => ha.disj i k' v' x j l' (hout ho) (h.ref.leaf.1 hl)
  · exact fun i k' v' i2 k2 v2 x ho ho2 => ha.inj i k' v' i2 k2 v2 x (hout ho) (hout ho2)
  · intro i k' v' x t ho hi b hb T hT hv
    have hval := h.ref.value hw T i
    simp only at ho hv
    rw [hval, (h.ref.node i).isGeneral, h.ref.att hw] at hv
    have hbC : ClauseSet.sat b C := ((ClauseSet.sat_append _ _ _).1 hb).1
    by_cases hik : i = id ∧ k' = k
    · obtain ⟨rfl, rfl⟩ := hik
      rw [h.new] at ho
      cases ho
      cases hs : (LitData.lit l s).hasIf with
      | true => exact hC i k' v l s h.old hs b hbC T hT hv
      | false => exact hIf hi hs C hC b hb T hT hv
    · rw [h.other i k' (by
        by_cases h1 : i = id
        · exact Or.inr fun h2 => hik ⟨h1, h2⟩
        · exact Or.inl h1)] at ho
      exact hC i k' v' x t ho hi b hbC T hT hv
  · intro i k' v' x t ho hi b hb hl
    have hval := h.ref.value hw (trueLits b) i
    simp only at ho ⊢
    rw [hval]
    have hbC : ClauseSet.sat b C := ((ClauseSet.sat_append _ _ _).1 hb).1
    by_cases hik : i = id ∧ k' = k
    · obtain ⟨rfl, rfl⟩ := hik
      rw [h.new] at ho
      cases ho
      cases hs : (LitData.lit l s).hasOnlyIf with
      | true => exact hC i k' v l s h.old hs b hbC hl
      | false => exact hOnly hn hi hs C hC b hb hl
    · rw [h.other i k' (by
        by_cases h1 : i = id
        · exact Or.inr fun h2 => hik ⟨h1, h2⟩
        · exact Or.inl h1)] at ho
      exact hC i k' v' x t ho hi b hbC hl
  · exact hsat b (hb.of_ref (fun _ _ => keep_of_ref) h.ref hw)
end

/-! ### Setting an output of a unit node -/

theorem Db.node_set {db : Db} {id : Nat} (hid : id < db.nodes.length) (n : Node) (i : Nat) :
    ({ db with nodes := db.nodes.set id n } : Db).node i = if i = id then n else db.node i := by
  unfold Db.node
  simp only [List.getD_eq_getElem?_getD]
  by_cases h : i = id
  · subst h
    rw [if_pos rfl, List.getElem?_set_self hid]; rfl
  · rw [if_neg h, List.getElem?_set_ne (Ne.symm h)]

theorem Db.node_lt {db : Db} {id : Nat} (h : db.node id ≠ .dummy) : id < db.nodes.length := by
  rcases Nat.lt_or_ge id db.nodes.length with h' | h'
  · exact h'
  · exact absurd (Db.node_out h') h

theorem setUnit_eq {db : Db} {id idx : Nat} {lits : List LitData} {dp nl : Nat} {lc rc : NodeCon} {d : LitData}
    (hn : db.node id = .unit lits dp nl lc rc) :
    db.setUnit id idx d = { db with nodes := db.nodes.set id (.unit (lits.set idx d) dp nl lc rc) } := by
  unfold Db.setUnit; rw [hn]

theorem setUnit_node {db : Db} {id idx : Nat} {lits : List LitData} {dp nl : Nat} {lc rc : NodeCon} {d : LitData}
    (hn : db.node id = .unit lits dp nl lc rc) (i : Nat) :
    (db.setUnit id idx d).node i = if i = id then .unit (lits.set idx d) dp nl lc rc else db.node i := by
  rw [setUnit_eq hn, Db.node_set (Db.node_lt (by rw [hn]; exact fun h => by cases h))]

theorem setUnit_upd {db : Db} {id idx : Nat} {lits : List LitData} {dp nl : Nat} {lc rc : NodeCon} {d d' : LitData}
    (hn : db.node id = .unit lits dp nl lc rc) (hd : lits[idx]? = some d) (hr : LitRef d d') :
    OutUpd db (db.setUnit id idx d') id idx (idx + 1) d d' := by
  have hi : idx < lits.length := (List.getElem?_eq_some_iff.1 hd).1
  have hnode := fun i => setUnit_node (idx := idx) (d := d') hn i
  refine ⟨⟨?_, ?_, ?_, fun i => ?_⟩, ?_, ?_, fun i k' h => ?_⟩
  · rw [setUnit_eq hn]; simp
  · rw [setUnit_eq hn]
  · rw [setUnit_eq hn]
  · rw [hnode]
    by_cases h : i = id
    · subst h
      rw [if_pos rfl, hn]
      refine ⟨rfl, rfl, rfl, rfl, by simp, fun j x y hx hy => ?_⟩
      by_cases hj : idx = j
      · subst hj
        rw [List.getElem?_set_self hi] at hy
        rw [hd] at hx
        cases hx; cases hy
        exact hr
      · rw [List.getElem?_set_ne hj, hx] at hy
        cases hy
        exact LitRef.refl _
    · rw [if_neg h]
      exact NodeRel.refl LitRef.refl _
  · rw [hn]; simp [Node.outData, hd]
  · rw [hnode, if_pos rfl]; simp [Node.outData, List.getElem?_set_self hi]
  · rw [hnode]
    by_cases hi : i = id
    · subst hi
      rw [if_pos rfl, hn]
      have hk : idx ≠ k' := by rcases h with h | h; exact absurd rfl h; exact Ne.symm h
      simp only [Node.outData, List.getElem?_set_ne hk]
    · rw [if_neg hi]

/-! ### Children of unit nodes -/

/-- Output `idx` of a leaf or unit node has literal `l` with (at least) the given semantics. -/
def HasLit (db : Db) (id idx : Nat) (sem : Semantics) (l : Lit) : Prop :=
  (db.node id = .leaf l ∧ idx = 0) ∨
    ∃ s, (db.node id).isGeneral = false ∧ (db.node id).outData idx = some (idx + 1, .lit l (some s)) ∧
      (sem.hasIf = true → s.hasIf = true) ∧ (sem.hasOnlyIf = true → s.hasOnlyIf = true)

theorem HasLit.ref {db db' : Db} (h : DbRef db db') {id idx : Nat} {sem : Semantics} {l : Lit}
    (hl : HasLit db id idx sem l) : HasLit db' id idx sem l := by
  rcases hl with ⟨h1, h2⟩ | ⟨s, h0, h1, h2, h3⟩
  · exact Or.inl ⟨h.leaf.2 h1, h2⟩
  · obtain ⟨d', e1, e2⟩ := (h.node id).outData_fwd h1
    obtain ⟨s', rfl⟩ := e2.keep l (some s) rfl
    have hs' : ∃ t, s' = some t := by
      cases s' with
      | some t => exact ⟨t, rfl⟩
      | none =>
        have := e2.hasIf
        have := e2.hasOnlyIf
        cases s <;> simp_all [LitData.hasIf, LitData.hasOnlyIf, Semantics.hasIf, Semantics.hasOnlyIf]
    obtain ⟨t, rfl⟩ := hs'
    exact Or.inr ⟨t, by rw [(h.node id).isGeneral]; exact h0, e1, fun hi => e2.hasIf (h2 hi),
      fun ho => e2.hasOnlyIf (h3 ho)⟩

theorem value_leaf {db : Db} (hw : db.WF) {id : Nat} {l : Lit} (h : db.node id = .leaf l) (T : Lit → Bool) :
    value db T id = if T l then 1 else 0 := by
  rw [value_eq hw, h]; rfl

theorem HasLit.if_ {db : Db} (hw : db.WF) {id idx : Nat} {sem : Semantics} {l : Lit} (hl : HasLit db id idx sem l)
    (hs : sem.hasIf = true) {C : ClauseSet} (hC : SoundIf db C) {b : Asg} (hb : ClauseSet.sat b C)
    {T : Lit → Bool} (hT : ∀ x, T x = true → x.holds b = true) (hv : idx + 1 ≤ value db T id) :
    l.holds b = true := by
  rcases hl with ⟨h1, rfl⟩ | ⟨s, h0, h1, h2, -⟩
  · rw [value_leaf hw h1] at hv
    by_cases h : T l = true
    · exact hT l h
    · rw [if_neg h] at hv; omega
  · exact hC id idx (idx + 1) l (some s) h1 (h2 hs) b hb T hT (Or.inr ⟨h0, hv⟩)

theorem HasLit.onlyIf {db : Db} (hw : db.WF) {id idx : Nat} {sem : Semantics} {l : Lit} (hl : HasLit db id idx sem l)
    (hs : sem.hasOnlyIf = true) {C : ClauseSet} (hC : SoundOnlyIf db C) {b : Asg} (hb : ClauseSet.sat b C)
    (hv : l.holds b = true) : idx + 1 ≤ value db (trueLits b) id := by
  rcases hl with ⟨h1, rfl⟩ | ⟨s, h0, h1, -, h2⟩
  · rw [value_leaf hw h1]; unfold trueLits; rw [if_pos hv]
  · exact hC id idx (idx + 1) l (some s) h1 (h2 hs) b hb hv

theorem HasLit.strict {db : Db} (hw : db.WF) {id idx : Nat} {sem : Semantics} {l : Lit} (hl : HasLit db id idx sem l)
    {b : Asg} (hb : Strict db b) : l.holds b = true ↔ idx + 1 ≤ value db (trueLits b) id := by
  rcases hl with ⟨h1, rfl⟩ | ⟨s, h0, h1, -, -⟩
  · rw [value_leaf hw h1]
    unfold trueLits
    by_cases h : l.holds b = true
    · simp [h]
    · simp [h]
  · exact hb id idx (idx + 1) l ⟨_, h1⟩

/-- The variable of the literal belongs to the database. -/
def VarIn (db : Db) (x : Nat) : Prop :=
  (∃ j l, db.node j = .leaf l ∧ l.var = x) ∨ ∃ i k v l, OutAt db i k v l ∧ l.var = x

theorem HasLit.varIn {db : Db} {id idx : Nat} {sem : Semantics} {l : Lit} (hl : HasLit db id idx sem l) :
    VarIn db l.var := by
  rcases hl with ⟨h1, -⟩ | ⟨s, -, h1, -, -⟩
  · exact Or.inl ⟨id, l, h1, rfl⟩
  · exact Or.inr ⟨id, idx, idx + 1, l, ⟨_, h1⟩, rfl⟩

/-- Reading the literal from the slice of literals of a child. -/
theorem HasLit.slice {db : Db} {id idx : Nat} {sem : Semantics} {l : Lit} (hl : HasLit db id idx sem l) :
    ∀ lits, litSlice db id = some lits → sliceLit lits idx = some l := by
  intro lits he
  unfold litSlice at he
  rcases hl with ⟨h1, rfl⟩ | ⟨s, h0, h1, -, -⟩
  · rw [h1] at he; cases he; rfl
  · cases hn : db.node id with
    | unit ls dp nl lc rc =>
      rw [hn] at he h1
      cases he
      simp only [Node.outData, Option.map_eq_some_iff] at h1
      obtain ⟨d, hd, e⟩ := h1
      cases e
      unfold sliceLit; rw [hd]; rfl
    | general => rw [hn] at h0; cases h0
    | leaf => rw [hn] at h1; cases h1
    | dummy => rw [hn] at h1; cases h1

/-- The output of a child that stands for a value of the connection. -/
theorem con_child {db : Db} {c : NodeCon} (hc : UnitCon db c) {k : Nat} (h1 : 0 < k) (h2 : k ≤ db.conLen c) :
    conIdx (k - 1) c < (db.node c.id).len ∧
      ∀ T, k ≤ conVal db T c ↔ conIdx (k - 1) c + 1 ≤ value db T c.id := by
  have hlim : ∀ l, c.lenLimit = some l → k ≤ l := fun l hl => by
    have := NodeCon.steps_le_limit hl (db.node c.id).len
    rw [conLen_eq] at h2; omega
  have hd : 0 < k * c.divisor := Nat.mul_pos h1 hc.wf.div
  have e : conIdx (k - 1) c + 1 = k * c.divisor + c.offset := by
    unfold conIdx
    have hk : k - 1 + 1 = k := by omega
    have hm : k / c.multiplier = k := by rw [hc.mult, Nat.div_one]
    rw [hk, NodeCon.revMap_eq hc.wf (by rw [hm]; exact h1) (by rw [hm]; exact hlim), hm]
    omega
  refine ⟨?_, fun T => ?_⟩
  · rw [conLen_eq, NodeCon.le_steps_iff hc.wf h1 hlim] at h2
    omega
  · unfold conVal
    rw [NodeCon.map_eq, hc.mult, Nat.mul_one, NodeCon.le_steps_iff hc.wf h1 hlim, e]

end TotDb
end RustSat
