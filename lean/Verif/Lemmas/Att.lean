import Verif.Lemmas.Trees
/-
The values that a node can attain when only some of the true occurrences of literals are counted.
-/
namespace RustSat
namespace TotDb

/-- Value `v` of node `i` is attained by some of the occurrences of literals in `T`. -/
inductive Att (db : Db) (T : Lit → Bool) : Nat → Nat → Prop
  | zero (i : Nat) : Att db T i 0
  | leaf (i : Nat) (l : Lit) (h : db.node i = .leaf l) (hT : T l = true) : Att db T i 1
  | inner (i : Nat) (lc rc : NodeCon) (u w : Nat) (h : (db.node i).shape = .inner lc rc) (h1 : Att db T lc.id u)
      (h2 : Att db T rc.id w) : Att db T i (lc.map u + rc.map w)

theorem shape_leaf {n : Node} {l : Lit} : n.shape = .leaf l ↔ n = .leaf l := by
  cases n <;> simp [Node.shape]

theorem att_value {db : Db} (hw : db.WF) (T : Lit → Bool) : ∀ id, Att db T id (value db T id) := by
  intro id
  induction id using Nat.strongRecOn with
  | _ id ih =>
    rw [value_eq hw]
    cases hs : (db.node id).shape with
    | dummy => exact .zero _
    | leaf l =>
      simp only
      by_cases h : T l = true
      · rw [if_pos h]; exact .leaf _ l (shape_leaf.1 hs) h
      · rw [if_neg h]; exact .zero _
    | inner l r =>
      obtain ⟨h1, h2⟩ := hw.children hs
      exact .inner _ l r _ _ hs (ih l.id h1) (ih r.id h2)

theorem Att.le {db : Db} (hw : db.WF) {T : Lit → Bool} {id v : Nat} (h : Att db T id v) : v ≤ value db T id := by
  induction h with
  | zero => exact Nat.zero_le _
  | leaf i l h hT => rw [value_eq hw, h]; simp only [Node.shape, if_pos hT]; omega
  | inner i lc rc u w h _ _ ih1 ih2 =>
    rw [value_eq hw, h]
    exact Nat.add_le_add (lc.map_mono ih1) (rc.map_mono ih2)

theorem Att.congr {db db' : Db} (hw : ∀ {i : Nat} {l r : NodeCon}, (db.node i).shape = .inner l r → l.id < i ∧ r.id < i) {T : Lit → Bool} {n : Nat}
    (hs : ∀ j, j < n → (db.node j).shape = (db'.node j).shape) {id v : Nat} (h : Att db T id v) (hid : id < n) :
    Att db' T id v := by
  induction h with
  | zero => exact .zero _
  | leaf i l h hT => exact .leaf i l (shape_leaf.1 (by rw [← hs i hid]; exact shape_leaf.2 h)) hT
  | inner i lc rc u w h _ _ ih1 ih2 =>
    obtain ⟨c1, c2⟩ := hw h
    exact .inner i lc rc u w (by rw [← hs i hid]; exact h) (ih1 (by omega)) (ih2 (by omega))

theorem ExtD.att {dm : Prop} {L : List Lit} {a b : Db} (h : ExtD dm L a b) (hwa : a.WF) (hwb : b.WF) {T : Lit → Bool}
    {i v : Nat} (hi : i < a.nodes.length) : Att b T i v ↔ Att a T i v :=
  ⟨fun x => x.congr hwb.children (n := a.nodes.length) (fun j hj => by rw [h.node hj]) hi,
    fun x => x.congr hwa.children (n := a.nodes.length) (fun j hj => by rw [h.node hj]) hi⟩

/-- An attained positive value is one of the outputs of a node. -/
theorem Att.mem_vals {db : Db} (hw : db.WF) {T : Lit → Bool} : ∀ id {v : Nat}, Att db T id v →
    v = 0 ∨ v ∈ (db.node id).valsFrom 1 := by
  intro id
  induction id using Nat.strongRecOn with
  | _ id ih =>
    intro v h
    cases hx : db.node id with
    | dummy =>
      have := h.le hw
      rw [value_eq hw, hx] at this
      left; simpa [Node.shape] using this
    | leaf l =>
      have := h.le hw
      rw [value_eq hw, hx] at this
      simp only [Node.shape, Node.valsFrom] at this ⊢
      have h1 : v ≤ 1 := by split at this <;> omega
      simp
      omega
    | unit lits d nl l r =>
      have h1 := h.le hw
      have := value_le_len hw T id (by rw [hx]; rfl)
      rw [hx] at this
      simp only [Node.len] at this
      simp only [Node.valsFrom, List.mem_range'_1]
      omega
    | general lits d nl m l r =>
      have hid : id < db.nodes.length := by
        rcases Nat.lt_or_ge id db.nodes.length with h' | h'
        · exact h'
        · rw [Db.node_out h'] at hx; cases hx
      have hn := hw.nodes id _ (Db.getElem?_node hid)
      rw [hx] at hn
      obtain ⟨h1, h2, h3, h4, h5, h6, h7⟩ := hn
      cases h with
      | zero => exact Or.inl rfl
      | leaf _ l' hl _ => rw [hx] at hl; cases hl
      | inner _ lc rc u w hs a1 a2 =>
        rw [hx] at hs
        cases hs
        have key : ∀ (c : NodeCon) (u : Nat), PlainCon db c → c.id < id → Att db T c.id u →
            c.map u = 0 ∨ c.map u ∈ TotDb.conVals db c := by
          intro c u hc hlt ha
          rw [hc.map, hc.conVals]
          rcases ih c.id hlt ha with h0 | hm
          · left; rw [h0]; simp
          · right; exact List.mem_map_of_mem hm
        simp only [Node.valsFrom, List.mem_filter, decide_eq_true_eq]
        rw [h6]
        have hl := key l u h3 h1 a1
        have hr := key r w h4 h2 a2
        generalize l.map u = x at hl ⊢
        generalize r.map w = y at hr ⊢
        rcases Nat.eq_zero_or_pos (x + y) with h0 | h0
        · exact Or.inl h0
        · right
          refine ⟨?_, h0⟩
          rcases hl with rfl | hl
          · rcases hr with rfl | hr
            · omega
            · right; left; rw [Nat.zero_add]; exact hr
          · rcases hr with rfl | hr
            · left; exact hl
            · right; right; exact ⟨x, hl, y, hr, rfl⟩

/-- The values transmitted by a connection when only some occurrences are counted. -/
def AttC (db : Db) (T : Lit → Bool) (c : NodeCon) (v : Nat) : Prop := ∃ u, Att db T c.id u ∧ v = c.map u

/-- The attained values have no gaps larger than `M`. -/
def Gap (db : Db) (c : NodeCon) (M : Nat) : Prop :=
  ∀ T b, b < conVal db T c → ∃ v, AttC db T c v ∧ b < v ∧ v ≤ b + M

theorem steps_succ (c : NodeCon) (hc : 0 < c.divisor) (v : Nat) : c.steps (v + 1) ≤ c.steps v + 1 := by
  have key : (v + 1 - c.offset) / c.divisor ≤ (v - c.offset) / c.divisor + 1 := by
    have h1 : v + 1 - c.offset ≤ (v - c.offset) + c.divisor := by omega
    exact Nat.le_trans (Nat.div_le_div_right h1) (by rw [Nat.add_div_right _ hc])
  unfold NodeCon.steps
  cases c.lenLimit with
  | none => exact key
  | some l => simp only; omega

/-- Every number of steps up to the maximum is reached. -/
theorem steps_reach (c : NodeCon) (hc : 0 < c.divisor) : ∀ (n x : Nat), x ≤ c.steps n → ∃ u, u ≤ n ∧ c.steps u = x := by
  intro n
  induction n with
  | zero => intro x hx; rw [c.steps_zero] at hx; exact ⟨0, Nat.le_refl _, by rw [c.steps_zero]; omega⟩
  | succ n ih =>
    intro x hx
    rcases Nat.lt_or_ge (c.steps n) x with h | h
    · have := steps_succ c hc n
      exact ⟨n + 1, Nat.le_refl _, by omega⟩
    · obtain ⟨u, h1, h2⟩ := ih x h
      exact ⟨u, by omega, h2⟩

/-- Nodes with consecutive values attain all values up to their value. -/
theorem att_unit {db : Db} (hw : db.WF) (T : Lit → Bool) : ∀ id, (db.node id).isGeneral = false →
    ∀ v, v ≤ value db T id → Att db T id v := by
  intro id
  induction id using Nat.strongRecOn with
  | _ id ih =>
    intro hg v hv
    cases hx : db.node id with
    | dummy => rw [value_eq hw, hx] at hv; simp only [Node.shape] at hv; rw [show v = 0 by omega]; exact .zero _
    | leaf l =>
      rw [value_eq hw, hx] at hv
      simp only [Node.shape] at hv
      by_cases h : T l = true
      · rw [if_pos h] at hv
        rcases Nat.lt_or_ge 0 v with h' | h'
        · rw [show v = 1 by omega]; exact .leaf _ l hx h
        · rw [show v = 0 by omega]; exact .zero _
      · rw [if_neg h] at hv; rw [show v = 0 by omega]; exact .zero _
    | general => rw [hx] at hg; cases hg
    | unit lits d nl l r =>
      have hid : id < db.nodes.length := by
        rcases Nat.lt_or_ge id db.nodes.length with h' | h'
        · exact h'
        · rw [Db.node_out h'] at hx; cases hx
      have hn := hw.nodes id _ (Db.getElem?_node hid)
      rw [hx] at hn
      obtain ⟨h1, h2, h3, h4, h5⟩ := hn
      have key : ∀ c : NodeCon, UnitCon db c → c.id < id → ∀ x, x ≤ conVal db T c → ∃ u, Att db T c.id u ∧ c.map u = x := by
        intro c hc hlt x hx
        unfold conVal at hx
        rw [NodeCon.map_eq, hc.mult, Nat.mul_one] at hx
        obtain ⟨u, hu, e⟩ := steps_reach c hc.wf.div _ x hx
        exact ⟨u, ih c.id hlt hc.notGeneral u hu, by rw [NodeCon.map_eq, hc.mult, Nat.mul_one, e]⟩
      rw [value_eq hw, hx] at hv
      simp only [Node.shape] at hv
      have hv' : v ≤ conVal db T l + conVal db T r := hv
      obtain ⟨u, a1, e1⟩ := key l h3 h1 (min v (conVal db T l)) (Nat.min_le_right _ _)
      obtain ⟨w, a2, e2⟩ := key r h4 h2 (v - min v (conVal db T l)) (by omega)
      have := Att.inner (db := db) (T := T) id l r u w (by rw [hx]; rfl) a1 a2
      rw [e1, e2] at this
      rw [show v = min v (conVal db T l) + (v - min v (conVal db T l)) by omega]
      exact this

end TotDb
end RustSat
