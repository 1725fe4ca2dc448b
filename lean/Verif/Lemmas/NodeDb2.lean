import Verif.Lemmas.NodeDb
/-
The values of general nodes, values of nodes are among their outputs, merging two connections.
-/
namespace RustSat
namespace TotDb

theorem take_takeWhile {α : Type} (p : α → Bool) (l : List α) :
    l.take (l.takeWhile p).length = l.takeWhile p ∧ l.drop (l.takeWhile p).length = l.dropWhile p := by
  induction l with
  | nil => simp
  | cons a l ih =>
    by_cases h : p a = true
    · simp [h, ih.1, ih.2]
    · simp [h]

theorem pairwise_lt_nodup {l : List Nat} (h : l.Pairwise (· < ·)) : l.Nodup :=
  h.imp (fun hab => by omega)

/-- The smallest elements of a sorted list. -/
theorem prefix_lt {lits pre : List Nat} {b : Nat} (hs : lits.Pairwise (· < ·)) (hp : pre.Pairwise (· < ·))
    (hsub : ∀ x ∈ pre, x ∈ lits) (hb : ∀ x ∈ pre, x < b) : ∀ x ∈ lits.take pre.length, x < b := by
  intro x hx
  rcases Nat.lt_or_ge x b with h | h
  · exact h
  · exfalso
    have hsplit : (lits.take pre.length ++ lits.drop pre.length).Pairwise (· < ·) := by
      rw [List.take_append_drop]; exact hs
    have hgt := (List.pairwise_append.1 hsplit).2.2
    have hin : ∀ y ∈ pre, y ∈ lits.take pre.length := by
      intro y hy
      have := hsub y hy
      rw [← List.take_append_drop pre.length lits] at this
      rcases List.mem_append.1 this with h' | h'
      · exact h'
      · have h1 := hgt x hx y h'
        have h2 := hb y hy
        omega
    have hnd : (x :: pre).Nodup := by
      rw [List.nodup_cons]
      refine ⟨fun hm => ?_, pairwise_lt_nodup hp⟩
      have := hb x hm
      omega
    have := List.Nodup.length_le_of_subset hnd (l₂ := lits.take pre.length) (by
      intro y hy
      rcases List.mem_cons.1 hy with rfl | hy
      · exact hx
      · exact hin y hy)
    simp only [List.length_cons, List.length_take] at this
    omega

theorem insertVal_spec {lits : List Nat} {idx val : Nat} (hs : lits.Pairwise (· < ·))
    (hidx : ∀ x ∈ lits.take idx, x < val) :
    (insertVal lits idx val).1.Pairwise (· < ·) ∧
    (∀ v, v ∈ (insertVal lits idx val).1 ↔ v ∈ lits ∨ v = val) ∧
    ∀ x ∈ (insertVal lits idx val).1.take (insertVal lits idx val).2, x ≤ val := by
  unfold insertVal
  simp only
  obtain ⟨ht, hd⟩ := take_takeWhile (fun v => decide (v < val)) (lits.drop idx)
  generalize hi : idx + ((lits.drop idx).takeWhile fun v => decide (v < val)).length = i
  have hA : ∀ x ∈ lits.take i, x < val := by
    intro x hx
    rw [← hi, List.take_add, ht] at hx
    rcases List.mem_append.1 hx with h | h
    · exact hidx x h
    · have := (List.all_takeWhile (p := fun v => decide (v < val)) (l := lits.drop idx))
      rw [List.all_eq_true] at this
      simpa using this x h
  have hB : lits.drop i = (lits.drop idx).dropWhile fun v => decide (v < val) := by
    rw [← hi, ← List.drop_drop, hd]
  have hsplit : (lits.take i ++ lits.drop i).Pairwise (· < ·) := by rw [List.take_append_drop]; exact hs
  obtain ⟨hsA, hsB, hAB⟩ := List.pairwise_append.1 hsplit
  have hhead : ∀ b, (lits.drop i).head? = some b → val ≤ b := by
    intro b hb
    rw [hB] at hb
    have := List.head?_dropWhile_not (fun v => decide (v < val)) (lits.drop idx)
    rw [hb] at this
    simpa using this
  by_cases hc : i ≥ lits.length ∨ lits.getD i 0 > val
  · rw [if_pos hc]
    have hgt : ∀ y ∈ lits.drop i, val < y := by
      intro y hy
      rcases hc with hc | hc
      · rw [List.drop_eq_nil_of_le hc] at hy; cases hy
      · rcases Nat.lt_or_ge i lits.length with hlt | hge
        · rw [List.drop_eq_getElem_cons hlt] at hy hsB
          rw [List.getD_eq_getElem?_getD, List.getElem?_eq_getElem hlt] at hc
          simp only [Option.getD_some] at hc
          rcases List.mem_cons.1 hy with rfl | hy
          · exact hc
          · have := List.rel_of_pairwise_cons hsB hy
            omega
        · rw [List.drop_eq_nil_of_le hge] at hy; cases hy
    refine ⟨?_, ?_, ?_⟩
    · rw [List.pairwise_append]
      refine ⟨hsA, List.pairwise_cons.2 ⟨hgt, hsB⟩, ?_⟩
      intro a ha b hb
      rcases List.mem_cons.1 hb with rfl | hb
      · exact hA a ha
      · exact hAB a ha b hb
    · intro v
      conv => rhs; rw [← List.take_append_drop i lits]
      simp only [List.mem_append, List.mem_cons]
      constructor
      · rintro (h | h | h)
        · exact Or.inl (Or.inl h)
        · exact Or.inr h
        · exact Or.inl (Or.inr h)
      · rintro ((h | h) | h)
        · exact Or.inl h
        · exact Or.inr (Or.inr h)
        · exact Or.inr (Or.inl h)
    · intro x hx
      rcases Nat.lt_or_ge lits.length i with hlt | hge
      · have hx' := List.mem_of_mem_take hx
        rw [List.drop_eq_nil_of_le (by omega)] at hx'
        rcases List.mem_append.1 hx' with h | h
        · exact Nat.le_of_lt (hA x h)
        · simp at h; omega
      · have : (lits.take i).length = i := by rw [List.length_take]; omega
        rw [List.take_append, this] at hx
        have e1 : i + 1 - i = 1 := by omega
        rw [e1, List.take_of_length_le (by omega)] at hx
        rcases List.mem_append.1 hx with h | h
        · exact Nat.le_of_lt (hA x h)
        · simp at h; omega
  · rw [if_neg hc]
    have hlt : i < lits.length := by omega
    have hle : lits[i] ≤ val := by
      have : ¬ lits.getD i 0 > val := fun h => hc (Or.inr h)
      rw [List.getD_eq_getElem?_getD, List.getElem?_eq_getElem hlt] at this
      simp only [Option.getD_some] at this
      omega
    have hge : val ≤ lits[i] := hhead _ (by rw [List.drop_eq_getElem_cons hlt]; rfl)
    have heq : lits[i] = val := by omega
    refine ⟨hs, ?_, ?_⟩
    · intro v
      constructor
      · exact Or.inl
      · rintro (h | h)
        · exact h
        · rw [h, ← heq]; exact List.getElem_mem hlt
    · intro x hx
      rw [List.take_succ_eq_append_getElem hlt] at hx
      rcases List.mem_append.1 hx with h | h
      · exact Nat.le_of_lt (hA x h)
      · simp at h; omega

theorem insertRight_spec : ∀ (rs lits : List Nat) (idx : Nat), lits.Pairwise (· < ·) → rs.Pairwise (· < ·) →
    (∀ x ∈ lits.take idx, ∀ r ∈ rs, x < r) →
    (insertRight lits idx rs).Pairwise (· < ·) ∧ ∀ v, v ∈ insertRight lits idx rs ↔ v ∈ lits ∨ v ∈ rs := by
  intro rs
  induction rs with
  | nil => intro lits idx hs _ _; exact ⟨hs, by simp [insertRight]⟩
  | cons r rs ih =>
    intro lits idx hs hr hx
    rw [insertRight]
    have h := insertVal_spec hs (val := r) (fun x hx' => hx x hx' r (by simp))
    generalize insertVal lits idx r = q at h ⊢
    obtain ⟨lits', idx'⟩ := q
    obtain ⟨h1, h2, h3⟩ := h
    simp only at h1 h2 h3 ⊢
    obtain ⟨g1, g2⟩ := ih lits' idx' h1 (List.pairwise_cons.1 hr).2 (fun x hx' r' hr' => by
      have := h3 x hx'
      have := List.rel_of_pairwise_cons hr hr'
      omega)
    refine ⟨g1, fun v => ?_⟩
    rw [g2, h2, List.mem_cons, or_assoc]

theorem insertSums_spec (l : Nat) (rvals : List Nat) (hrv : rvals.Pairwise (· < ·)) :
    ∀ (rs pre lits : List Nat) (idx : Nat), rvals = pre ++ rs → lits.Pairwise (· < ·) →
    (∀ x ∈ rvals, x ∈ lits) → (∀ x ∈ lits.take idx, ∀ r ∈ rs, x < l + r) →
    (insertSums l lits idx pre.length rs).Pairwise (· < ·) ∧
    ∀ v, v ∈ insertSums l lits idx pre.length rs ↔ v ∈ lits ∨ ∃ r ∈ rs, v = l + r := by
  intro rs
  induction rs with
  | nil => intro pre lits idx _ hs _ _; exact ⟨hs, by simp [insertSums]⟩
  | cons r rs ih =>
    intro pre lits idx hpre hs hsub hx
    rw [insertSums]
    have hsplit : (pre ++ r :: rs).Pairwise (· < ·) := by rw [← hpre]; exact hrv
    obtain ⟨hp, hrs, hcross⟩ := List.pairwise_append.1 hsplit
    have htk : ∀ x ∈ lits.take (max idx pre.length), x < l + r := by
      intro x hx'
      rcases Nat.le_total idx pre.length with h | h
      · rw [Nat.max_eq_right h] at hx'
        have := prefix_lt (b := r) hs hp (fun y hy => hsub y (by rw [hpre]; exact List.mem_append_left _ hy))
          (fun y hy => hcross y hy r (by simp)) x hx'
        omega
      · rw [Nat.max_eq_left h] at hx'
        exact hx x hx' r (by simp)
    have h := insertVal_spec hs htk
    generalize insertVal lits (max idx pre.length) (l + r) = q at h ⊢
    obtain ⟨lits', idx'⟩ := q
    obtain ⟨h1, h2, h3⟩ := h
    simp only at h1 h2 h3 ⊢
    have := ih (pre ++ [r]) lits' idx' (by rw [hpre]; simp) h1 (fun x hx' => (h2 x).2 (Or.inl (hsub x hx')))
      (fun x hx' r' hr' => by
        have := h3 x hx'
        have := List.rel_of_pairwise_cons hrs hr'
        omega)
    rw [List.length_append, List.length_singleton] at this
    refine ⟨this.1, fun v => ?_⟩
    rw [this.2, h2]
    simp only [List.mem_cons, exists_eq_or_imp, or_assoc]

theorem insertAllSums_spec (lvals rvals : List Nat) (hlv : lvals.Pairwise (· < ·)) (hrv : rvals.Pairwise (· < ·)) :
    ∀ (ls pre lits : List Nat), lvals = pre ++ ls → lits.Pairwise (· < ·) →
    (∀ x ∈ lvals, x ∈ lits) → (∀ x ∈ rvals, x ∈ lits) →
    (insertAllSums rvals lits pre.length ls).Pairwise (· < ·) ∧
    ∀ v, v ∈ insertAllSums rvals lits pre.length ls ↔ v ∈ lits ∨ ∃ l ∈ ls, ∃ r ∈ rvals, v = l + r := by
  intro ls
  induction ls with
  | nil => intro pre lits _ hs _ _; exact ⟨hs, by simp [insertAllSums]⟩
  | cons l ls ih =>
    intro pre lits hpre hs hl hr
    rw [insertAllSums]
    have hsplit : (pre ++ l :: ls).Pairwise (· < ·) := by rw [← hpre]; exact hlv
    obtain ⟨hp, hls, hcross⟩ := List.pairwise_append.1 hsplit
    have h := insertSums_spec l rvals hrv rvals [] lits pre.length (by simp) hs hr (fun x hx' r _ => by
      have := prefix_lt (b := l) hs hp (fun y hy => hl y (by rw [hpre]; exact List.mem_append_left _ hy))
          (fun y hy => hcross y hy l (by simp)) x hx'
      omega)
    rw [List.length_nil] at h
    generalize insertSums l lits pre.length 0 rvals = lits' at h ⊢
    have := ih (pre ++ [l]) lits' (by rw [hpre]; simp) h.1 (fun x hx' => (h.2 x).2 (Or.inl (hl x hx')))
      (fun x hx' => (h.2 x).2 (Or.inl (hr x hx')))
    rw [List.length_append, List.length_singleton] at this
    refine ⟨this.1, fun v => ?_⟩
    rw [this.2, h.2]
    simp only [List.mem_cons, exists_eq_or_imp, or_assoc]

/-- The values of a general node are the left values, the right values and their sums, in increasing order. -/
theorem generalVals_spec {lvals rvals : List Nat} (hl : lvals.Pairwise (· < ·)) (hr : rvals.Pairwise (· < ·)) :
    (generalVals lvals rvals).Pairwise (· < ·) ∧
    ∀ v, v ∈ generalVals lvals rvals ↔ v ∈ lvals ∨ v ∈ rvals ∨ ∃ x ∈ lvals, ∃ y ∈ rvals, v = x + y := by
  unfold generalVals
  obtain ⟨h1, h2⟩ := insertRight_spec rvals lvals 0 hl hr (by simp)
  have := insertAllSums_spec lvals rvals hl hr lvals [] _ (by simp) h1 (fun x hx => (h2 x).2 (Or.inl hx))
    (fun x hx => (h2 x).2 (Or.inr hx))
  rw [List.length_nil] at this
  refine ⟨this.1, fun v => ?_⟩
  rw [this.2, h2, or_assoc]

/-- The value of a node that is not general is at most its number of outputs. -/
theorem value_le_len {db : Db} (h : db.WF) (T : Lit → Bool) :
    ∀ id, (db.node id).isGeneral = false → value db T id ≤ (db.node id).len := by
  intro id
  induction id using Nat.strongRecOn with
  | _ id ih =>
    intro hg
    rw [value_eq h]
    rcases Nat.lt_or_ge id db.nodes.length with hid | hid
    · have hn := h.nodes id _ (Db.getElem?_node hid)
      cases hx : db.node id with
      | leaf l => simp only [Node.shape, Node.len]; split <;> omega
      | dummy => simp [Node.shape]
      | general => rw [hx] at hg; cases hg
      | unit lits d nl l r =>
        rw [hx] at hn
        obtain ⟨h1, h2, h3, h4, h5⟩ := hn
        show conVal db T l + conVal db T r ≤ lits.length
        have key : ∀ c : NodeCon, UnitCon db c → c.id < id → conVal db T c ≤ db.conLen c := by
          intro c hc hlt
          have := ih c.id hlt hc.notGeneral
          unfold conVal
          rw [NodeCon.map_eq, hc.mult, Nat.mul_one]
          have hs := c.steps_mono this
          unfold Db.conLen
          unfold NodeCon.steps at hs ⊢
          cases hl : c.lenLimit with
          | none => rw [hl] at hs; exact hs
          | some k => rw [hl] at hs; exact hs
        have := key l h3 h1
        have := key r h4 h2
        omega
    · rw [Db.node_out hid]; simp [Node.shape]

theorem conLen_eq (db : Db) (c : NodeCon) : db.conLen c = c.steps (db.node c.id).len := by
  unfold Db.conLen NodeCon.steps
  cases c.lenLimit <;> rfl

/-- The value of an unweighted connection is at most its length. -/
theorem conVal_le_conLen {db : Db} (h : db.WF) (T : Lit → Bool) {c : NodeCon} (hc : UnitCon db c) :
    conVal db T c ≤ db.conLen c := by
  unfold conVal
  rw [NodeCon.map_eq, hc.mult, Nat.mul_one, conLen_eq]
  exact c.steps_mono (value_le_len h T c.id hc.notGeneral)

theorem PlainCon.map {db : Db} {c : NodeCon} (hc : PlainCon db c) (v : Nat) : c.map v = v * c.multiplier := by
  rw [NodeCon.map_eq]
  unfold NodeCon.steps
  rw [hc.limit, hc.offset, hc.divisor]
  simp

theorem PlainCon.conVals {db : Db} {c : NodeCon} (hc : PlainCon db c) :
    TotDb.conVals db c = ((db.node c.id).valsFrom 1).map (· * c.multiplier) := by
  unfold TotDb.conVals
  rw [hc.limit, hc.offset]
  simp only [Nat.zero_add]
  apply List.map_congr_left
  intro v _
  exact hc.map v

theorem pairwise_range' (a n : Nat) : (List.range' a n).Pairwise (· < ·) := List.pairwise_lt_range'

/-- The values of a node are sorted. -/
theorem valsFrom_sorted {db : Db} (h : db.WF) (id k : Nat) : ((db.node id).valsFrom k).Pairwise (· < ·) := by
  rcases Nat.lt_or_ge id db.nodes.length with hid | hid
  · have hn := h.nodes id _ (Db.getElem?_node hid)
    cases hx : db.node id with
    | leaf l => simp only [Node.valsFrom]; split <;> simp
    | dummy => simp [Node.valsFrom]
    | unit lits d nl l r => exact pairwise_range' _ _
    | general lits d nl m l r =>
      rw [hx] at hn
      exact List.Pairwise.filter _ hn.2.2.2.2.1
  · rw [Db.node_out hid]; simp [Node.valsFrom]

theorem valsFrom_ge {n : Node} {k v : Nat} (h : v ∈ n.valsFrom k) : k ≤ v := by
  cases n with
  | leaf l =>
    simp only [Node.valsFrom] at h
    split at h
    · simp at h; omega
    · simp at h
  | dummy => simp [Node.valsFrom] at h
  | unit lits d nl l r =>
    simp only [Node.valsFrom, List.mem_range'_1] at h
    omega
  | general lits d nl m l r =>
    simp only [Node.valsFrom, List.mem_filter, decide_eq_true_eq] at h
    exact h.2

theorem conVals_sorted {db : Db} (h : db.WF) {c : NodeCon} (hc : PlainCon db c) :
    (TotDb.conVals db c).Pairwise (· < ·) := by
  rw [hc.conVals, List.pairwise_map]
  exact (valsFrom_sorted h c.id 1).imp (fun hab => Nat.mul_lt_mul_of_pos_right hab hc.mult)

/-- A positive value of a node is one of its outputs. -/
theorem value_mem_vals {db : Db} (h : db.WF) (T : Lit → Bool) :
    ∀ id, value db T id = 0 ∨ value db T id ∈ (db.node id).valsFrom 1 := by
  intro id
  induction id using Nat.strongRecOn with
  | _ id ih =>
    rcases Nat.lt_or_ge id db.nodes.length with hid | hid
    · have hn := h.nodes id _ (Db.getElem?_node hid)
      cases hx : db.node id with
      | leaf l =>
        rw [value_eq h, hx]
        simp only [Node.shape, Node.valsFrom]
        split <;> simp
      | dummy => rw [value_eq h, hx]; simp [Node.shape]
      | unit lits d nl l r =>
        have := value_le_len h T id (by rw [hx]; rfl)
        rw [hx] at this
        simp only [Node.len] at this
        simp only [Node.valsFrom, List.mem_range'_1]
        omega
      | general lits d nl m l r =>
        rw [hx] at hn
        obtain ⟨h1, h2, h3, h4, h5, h6, h7⟩ := hn
        rw [value_eq h, hx]
        simp only [Node.shape, Node.valsFrom, List.mem_filter, decide_eq_true_eq]
        have key : ∀ c : NodeCon, PlainCon db c → c.id < id → conVal db T c = 0 ∨ conVal db T c ∈ TotDb.conVals db c := by
          intro c hc hlt
          unfold conVal
          rw [hc.map, hc.conVals]
          rcases ih c.id hlt with h0 | hm
          · left; rw [h0]; simp
          · right; exact List.mem_map_of_mem hm
        rw [h6]
        have hl := key l h3 h1
        have hr := key r h4 h2
        generalize conVal db T l = x at hl ⊢
        generalize conVal db T r = y at hr ⊢
        rcases Nat.eq_zero_or_pos (x + y) with h0 | h0
        · exact Or.inl h0
        · right
          refine ⟨?_, h0⟩
          rcases hl with rfl | hl
          · rcases hr with rfl | hr
            · omega
            · right; left; rw [Nat.zero_add]; exact hr
          · rcases hr with rfl | hr
            · left; exact hl
            · right; right; exact ⟨x, hl, y, hr, rfl⟩
    · rw [value_eq h, Db.node_out hid]; simp [Node.shape]

/-- The inductive step of building trees: merging two connections. -/
def MergeOK (db : Db) (P : Db → NodeCon → Prop) (l r : NodeCon) (res : NodeCon × Db) : Prop :=
  res.2.WF ∧ Ext [] db res.2 ∧ P res.2 res.1 ∧ ∀ T, conVal res.2 T res.1 = conVal db T l + conVal db T r

theorem internal_blank (l r : NodeCon) (db : Db) : (Node.internal l r db).blank := by
  unfold Node.internal
  simp only
  split
  · simp only [Node.blank, List.mem_map]
    rintro d ⟨v, _, rfl⟩
    rfl
  · simp only [Node.blank, List.mem_replicate]
    rintro d ⟨_, rfl⟩
    rfl

theorem internal_shape (l r : NodeCon) (db : Db) : (Node.internal l r db).shape = .inner l r := by
  unfold Node.internal
  simp only
  split <;> rfl

theorem internal_not_leaf (l r : NodeCon) (db : Db) : ∀ x, Node.internal l r db ≠ .leaf x := by
  intro x h
  have := internal_shape l r db
  rw [h] at this
  cases this

theorem internal_insert {db : Db} (hw : db.WF) {l r : NodeCon} (hl : l.id < db.nodes.length)
    (hr : r.id < db.nodes.length) (hn : NodeOK db db.nodes.length (Node.internal l r db)) :
    let res := db.insert (Node.internal l r db)
    res.2.WF ∧ Ext [] db res.2 ∧ res.2.node res.1 = Node.internal l r db ∧ res.1 < res.2.nodes.length ∧
      ∀ T, value res.2 T res.1 = conVal db T l + conVal db T r := by
  have h := insert_inner hw (n := Node.internal l r db) (by rw [internal_shape]; simp) (internal_not_leaf l r db)
    (internal_blank l r db) hn
  simp only at h ⊢
  generalize db.insert (Node.internal l r db) = res at h ⊢
  obtain ⟨id, db'⟩ := res
  obtain ⟨h1, h2, h3, h4, h5⟩ := h
  simp only at h1 h2 h3 h4 h5 ⊢
  refine ⟨h1, h2, h3, h5, fun T => ?_⟩
  rw [value_eq h1, h3, internal_shape]
  simp only
  rw [h2.conVal hw T hl, h2.conVal hw T hr]

/-- Setting the weight of a connection to one divides its value by the weight. -/
theorem conVal_unweight (db : Db) (T : Lit → Bool) (c : NodeCon) :
    conVal db T c = conVal db T { c with multiplier := 1 } * c.multiplier := by
  unfold conVal
  rw [NodeCon.map_eq, NodeCon.map_eq]
  simp only [Nat.mul_one]
  rfl

theorem conVal_weighted (db : Db) (T : Lit → Bool) (id w : Nat) :
    conVal db T (NodeCon.weighted id w) = value db T id * w := by
  unfold conVal
  rw [NodeCon.map_eq]
  simp [NodeCon.steps, NodeCon.weighted]

theorem conVal_full (db : Db) (T : Lit → Bool) (id : Nat) : conVal db T (NodeCon.full id) = value db T id := by
  unfold conVal
  rw [NodeCon.map_eq]
  simp [NodeCon.steps, NodeCon.full]

theorem PlainCon.unit {db : Db} {c : NodeCon} (h : PlainCon db c) (hm : c.multiplier = 1)
    (hg : (db.node c.id).isGeneral = false) : UnitCon db c :=
  ⟨h.id, ⟨by rw [h.divisor]; omega, h.mult, by rw [h.limit]; simp⟩, hm, by rw [h.offset]; omega, hg⟩

/-- The node built from two plain connections is fine. -/
theorem internal_plain_ok {db : Db} (hw : db.WF) {l r : NodeCon} (hl : PlainCon db l) (hr : PlainCon db r)
    (hm : ¬(l.multiplier > 1 ∧ l.multiplier = r.multiplier)) : NodeOK db db.nodes.length (Node.internal l r db) := by
  unfold Node.internal
  simp only
  split
  · have hmap : List.map (fun x => x.1) (List.map (fun v => (v, LitData.none)) (generalVals (conVals db l) (conVals db r)))
        = generalVals (conVals db l) (conVals db r) := by
      rw [List.map_map]; simp [Function.comp_def]
    obtain ⟨h1, h2⟩ := generalVals_spec (conVals_sorted hw hl) (conVals_sorted hw hr)
    refine ⟨hl.id, hr.id, hl, hr, ?_, ?_, ?_⟩
    · rw [hmap]; exact h1
    · rw [hmap]; exact h2
    · rw [hmap]
  · rename_i hc
    have h1 : l.multiplier = r.multiplier := Classical.byContradiction fun h => hc (Or.inl h)
    have h2 : (db.node l.id).isGeneral = false := by
      cases h : (db.node l.id).isGeneral
      · rfl
      · exact absurd (Or.inr (Or.inl h)) hc
    have h3 : (db.node r.id).isGeneral = false := by
      cases h : (db.node r.id).isGeneral
      · rfl
      · exact absurd (Or.inr (Or.inr h)) hc
    have h4 : l.multiplier = 1 := by
      have := hl.mult
      rcases Nat.lt_or_ge 1 l.multiplier with h | h
      · exact absurd ⟨h, h1⟩ hm
      · omega
    exact ⟨hl.id, hr.id, hl.unit h4 h2, hr.unit (by omega) h3, by simp⟩

theorem internal_unit_ok {db : Db} {l r : NodeCon} (hl : UnitCon db l) (hr : UnitCon db r) :
    NodeOK db db.nodes.length (Node.internal l r db) ∧ (Node.internal l r db).isGeneral = false := by
  unfold Node.internal
  simp only
  rw [if_neg (by rw [hl.mult, hr.mult, hl.notGeneral, hr.notGeneral]; simp)]
  exact ⟨⟨hl.id, hr.id, hl, hr, by simp⟩, rfl⟩

theorem mergeCons_plain {db : Db} (hw : db.WF) {l r : NodeCon} (hl : PlainCon db l) (hr : PlainCon db r) :
    MergeOK db PlainCon l r (mergeCons db l r) := by
  unfold mergeCons
  by_cases hc : l.multiplier > 1 ∧ l.multiplier = r.multiplier
  · rw [if_pos hc]
    simp only
    have hl' : PlainCon db { l with multiplier := 1 } := ⟨hl.id, hl.offset, hl.divisor, by simp, hl.limit⟩
    have hr' : PlainCon db { r with multiplier := 1 } := ⟨hr.id, hr.offset, hr.divisor, by simp, hr.limit⟩
    have h := internal_insert hw hl'.id hr'.id (internal_plain_ok hw hl' hr' (by simp))
    simp only at h
    generalize db.insert (Node.internal { l with multiplier := 1 } { r with multiplier := 1 } db) = res at h ⊢
    obtain ⟨id, db'⟩ := res
    obtain ⟨h1, h2, h3, h4, h5⟩ := h
    refine ⟨h1, h2, ⟨h4, rfl, rfl, hl.mult, rfl⟩, fun T => ?_⟩
    simp only at h5 ⊢
    rw [conVal_weighted, h5, conVal_unweight db T l, conVal_unweight db T r, ← hc.2, Nat.add_mul]
  · rw [if_neg hc]
    simp only
    have h := internal_insert hw hl.id hr.id (internal_plain_ok hw hl hr hc)
    simp only at h
    generalize db.insert (Node.internal l r db) = res at h ⊢
    obtain ⟨id, db'⟩ := res
    obtain ⟨h1, h2, h3, h4, h5⟩ := h
    refine ⟨h1, h2, ⟨h4, rfl, rfl, by simp [NodeCon.full], rfl⟩, fun T => ?_⟩
    simp only at h5 ⊢
    rw [conVal_full, h5]

theorem mergeCons_unit {db : Db} (hw : db.WF) {l r : NodeCon} (hl : UnitCon db l) (hr : UnitCon db r) :
    MergeOK db UnitCon l r (mergeCons db l r) := by
  unfold mergeCons
  rw [if_neg (by rw [hl.mult]; omega)]
  simp only
  have h := internal_insert hw hl.id hr.id (internal_unit_ok hl hr).1
  simp only at h
  have hg := (internal_unit_ok hl hr).2
  generalize db.insert (Node.internal l r db) = res at h ⊢
  obtain ⟨id, db'⟩ := res
  obtain ⟨h1, h2, h3, h4, h5⟩ := h
  simp only at h3
  refine ⟨h1, h2, ⟨h4, ⟨by simp [NodeCon.full], by simp [NodeCon.full], by simp [NodeCon.full]⟩, rfl,
    by simp [NodeCon.full], by simp only [NodeCon.full]; rw [h3]; exact hg⟩, fun T => ?_⟩
  simp only at h5 ⊢
  rw [conVal_full, h5]

/-- A class of connections closed under merging. -/
structure Mergeable (P : Db → NodeCon → Prop) : Prop where
  id : ∀ {db c}, P db c → c.id < db.nodes.length
  ext : ∀ {L a b c}, a.WF → b.WF → Ext L a b → P a c → P b c
  merge : ∀ {db l r}, db.WF → P db l → P db r → MergeOK db P l r (mergeCons db l r)

theorem mergeable_plain : Mergeable PlainCon :=
  ⟨fun h => h.id, fun _ _ h hc => h.plain hc, fun hw hl hr => mergeCons_plain hw hl hr⟩

theorem mergeable_unit : Mergeable UnitCon :=
  ⟨fun h => h.id, fun _ _ h hc => h.unit hc, fun hw hl hr => mergeCons_unit hw hl hr⟩

end TotDb
end RustSat
