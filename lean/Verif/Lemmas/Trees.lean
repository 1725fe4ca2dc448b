import Verif.Lemmas.Merge
/-
`merge_balanced`, `lit_tree`, `weighted_lit_tree`, `merge_thorough`.
-/
namespace RustSat
namespace TotDb

theorem cumWeight_length (db : Db) : ∀ (cons : List NodeCon) (acc : Nat), (cumWeight db acc cons).length = cons.length := by
  intro cons
  induction cons with
  | nil => intro acc; rfl
  | cons c cs ih => intro acc; simp [cumWeight, ih]

theorem cumWeight_ge (db : Db) : ∀ (cons : List NodeCon) (acc : Nat), ∀ v ∈ cumWeight db acc cons, acc ≤ v := by
  intro cons
  induction cons with
  | nil => intro acc v hv; cases hv
  | cons c cs ih =>
    intro acc v hv
    rcases List.mem_cons.1 hv with rfl | hv
    · omega
    · have := ih _ v hv; omega

theorem cumWeight_sorted (db : Db) : ∀ (cons : List NodeCon) (acc : Nat), (cumWeight db acc cons).Pairwise (· ≤ ·) := by
  intro cons
  induction cons with
  | nil => intro acc; simp [cumWeight]
  | cons c cs ih =>
    intro acc
    rw [cumWeight, List.pairwise_cons]
    exact ⟨fun v hv => cumWeight_ge db cs _ v hv, ih _⟩

/-- The split is inside of the list. -/
theorem split_bounds {cum : List Nat} {offset : Nat} (hlen : 2 ≤ cum.length) (hoff : ∀ v ∈ cum, offset ≤ v) :
    1 + ((cum.drop 1).takeWhile fun v =>
      decide (v < (cum.getD (cum.length - 1) 0 - offset) / 2 + offset)).length < cum.length := by
  have hlast : cum.getD (cum.length - 1) 0 ∈ cum.drop 1 := by
    have : cum.getD (cum.length - 1) 0 = (cum.drop 1).getD (cum.length - 2) 0 := by
      rw [List.getD_eq_getElem?_getD, List.getD_eq_getElem?_getD, List.getElem?_drop]
      congr 2
      omega
    rw [this, List.getD_eq_getElem?_getD, List.getElem?_eq_getElem (by rw [List.length_drop]; omega)]
    exact List.getElem_mem _
  have hge := hoff _ (List.mem_of_mem_drop hlast)
  generalize cum.getD (cum.length - 1) 0 = last at hlast hge ⊢
  rcases Nat.lt_or_ge ((cum.drop 1).takeWhile fun v => decide (v < (last - offset) / 2 + offset)).length
    (cum.drop 1).length with h | h
  · rw [List.length_drop] at h; omega
  · exfalso
    have hpre := List.takeWhile_prefix (l := cum.drop 1) (fun v => decide (v < (last - offset) / 2 + offset))
    have heq := hpre.eq_of_length (Nat.le_antisymm hpre.length_le h)
    rw [← heq] at hlast
    have := List.all_takeWhile (p := fun v => decide (v < (last - offset) / 2 + offset)) (l := cum.drop 1)
    rw [List.all_eq_true] at this
    have := this _ hlast
    simp only [decide_eq_true_eq] at this
    omega

theorem mergeBalancedRec_spec {P : Db → NodeCon → Prop} (hP : Mergeable P) :
    ∀ (fuel : Nat) (db : Db) (cons : List NodeCon) (cum : List Nat) (offset : Nat), db.WF → cons ≠ [] →
      cons.length ≤ fuel → cum.length = cons.length → cum.Pairwise (· ≤ ·) → (∀ v ∈ cum, offset ≤ v) →
      (∀ c ∈ cons, P db c) →
      let r := mergeBalancedRec fuel db cons cum offset
      r.2.WF ∧ Ext [] db r.2 ∧ P r.2 r.1 ∧ ∀ T, conVal r.2 T r.1 = (cons.map (conVal db T)).sum := by
  intro fuel
  induction fuel with
  | zero =>
    intro db cons cum offset hw hne hf
    have := List.length_pos_iff.2 hne
    omega
  | succ fuel ih =>
    intro db cons cum offset hw hne hf hcl hcs hco hc
    rw [mergeBalancedRec.eq_def]
    match cons, hne with
    | [c], _ => exact ⟨hw, Ext.refl _ _, hc c (by simp), fun T => by simp⟩
    | c1 :: c2 :: cs, _ =>
      simp only
      generalize hcons : c1 :: c2 :: cs = cons at *
      have hcl2 : 2 ≤ cum.length := by rw [hcl, ← hcons]; simp
      have hsp := split_bounds hcl2 hco
      generalize hsd : 1 + ((cum.drop 1).takeWhile fun v =>
        decide (v < (cum.getD (cum.length - 1) 0 - offset) / 2 + offset)).length = split at hsp ⊢
      have hs1 : 1 ≤ split := by omega
      have hL := ih db (cons.take split) (cum.take split) offset hw
        (by intro h; have := congrArg List.length h; rw [List.length_take, List.length_nil] at this; omega)
        (by rw [List.length_take]; omega) (by rw [List.length_take, List.length_take]; omega)
        (hcs.sublist (List.take_sublist _ _)) (fun v hv => hco v (List.mem_of_mem_take hv))
        (fun c h => hc c (List.mem_of_mem_take h))
      simp only at hL
      generalize mergeBalancedRec fuel db (cons.take split) (cum.take split) offset = resL at hL ⊢
      obtain ⟨lcon, db1⟩ := resL
      obtain ⟨l1, l2, l3, l4⟩ := hL
      simp only at l1 l2 l3 l4 ⊢
      have hR := ih db1 (cons.drop split) (cum.drop split) (cum.getD (split - 1) 0) l1
        (by intro h; have := congrArg List.length h; rw [List.length_drop, List.length_nil] at this; omega)
        (by rw [List.length_drop]; omega) (by rw [List.length_drop, List.length_drop]; omega)
        (hcs.sublist (List.drop_sublist _ _))
        (fun v hv => by
          have hsplit : (cum.take split ++ cum.drop split).Pairwise (· ≤ ·) := by
            rw [List.take_append_drop]; exact hcs
          refine (List.pairwise_append.1 hsplit).2.2 _ ?_ v hv
          rw [List.getD_eq_getElem?_getD, List.getElem?_eq_getElem (by omega)]
          simp only [Option.getD_some]
          rw [List.mem_take_iff_getElem]
          exact ⟨split - 1, by omega, rfl⟩)
        (fun c h => hP.ext hw l1 l2 (hc c (List.mem_of_mem_drop h)))
      simp only at hR
      generalize mergeBalancedRec fuel db1 (cons.drop split) (cum.drop split) (cum.getD (split - 1) 0) = resR at hR ⊢
      obtain ⟨rcon, db2⟩ := resR
      obtain ⟨r1, r2, r3, r4⟩ := hR
      simp only at r1 r2 r3 r4 ⊢
      obtain ⟨m1, m2, m3, m4⟩ := hP.merge r1 (hP.ext l1 r1 r2 l3) r3
      refine ⟨m1, l2.trans (r2.trans m2), m3, fun T => ?_⟩
      rw [m4, r2.conVal l1 T (hP.id l3), l4, r4]
      have : (cons.drop split).map (conVal db1 T) = (cons.drop split).map (conVal db T) := by
        apply List.map_congr_left
        intro c h
        exact l2.conVal hw T (hP.id (hc c (List.mem_of_mem_drop h)))
      rw [this, ← List.sum_append, ← List.map_append, List.take_append_drop]

theorem mergeBalanced_spec {P : Db → NodeCon → Prop} (hP : Mergeable P) {db : Db} (hw : db.WF)
    {cons : List NodeCon} (hne : cons ≠ []) (hc : ∀ c ∈ cons, P db c) :
    ∃ c db', mergeBalanced db cons = (some c, db') ∧ db'.WF ∧ Ext [] db db' ∧ P db' c ∧
      ∀ T, conVal db' T c = (cons.map (conVal db T)).sum := by
  unfold mergeBalanced
  have he : cons.isEmpty = false := by simpa using hne
  rw [he]
  simp only [Bool.false_eq_true, if_false]
  have := mergeBalancedRec_spec hP cons.length db cons (cumWeight db 0 cons) 0 hw hne (Nat.le_refl _)
    (cumWeight_length db cons 0) (cumWeight_sorted db cons 0) (by simp) hc
  exact ⟨_, _, rfl, this⟩

/-- Inserting leaves. -/
theorem insertLeaves_spec : ∀ (lits : List Lit) (db : Db), db.WF →
    let r := insertLeaves db lits
    r.2.WF ∧ Ext lits db r.2 ∧ r.1.length = lits.length ∧
      (∀ c ∈ r.1, ∃ l ∈ lits, c = NodeCon.full c.id ∧ r.2.node c.id = .leaf l ∧ c.id < r.2.nodes.length) ∧
      ∀ T, (r.1.map (conVal r.2 T)).sum = (lits.map fun l => if T l then 1 else 0).sum := by
  intro lits
  induction lits with
  | nil =>
    intro db hw
    simp only [insertLeaves]
    exact ⟨hw, Ext.refl _ _, rfl, by simp, by simp⟩
  | cons l ls ih =>
    intro db hw
    simp only [insertLeaves]
    have h1 := insert_leaf hw l
    simp only at h1
    generalize db.insert (.leaf l) = r1 at h1 ⊢
    obtain ⟨id, db1⟩ := r1
    obtain ⟨a1, a2, a3, a4⟩ := h1
    simp only at a1 a2 a3 a4 ⊢
    have h2 := ih db1 a1
    simp only at h2
    generalize insertLeaves db1 ls = r2 at h2 ⊢
    obtain ⟨cons, db2⟩ := r2
    obtain ⟨b1, b2, b3, b4, b5⟩ := h2
    simp only at b1 b2 b3 b4 b5 ⊢
    refine ⟨b1, (a2.mono (by simp)).trans (b2.mono (fun x hx => by simp [hx])), by simp [b3], ?_, fun T => ?_⟩
    · intro c hc
      rcases List.mem_cons.1 hc with rfl | hc
      · exact ⟨l, by simp, rfl, by rw [show (NodeCon.full id).id = id from rfl, b2.node a4]; exact a3,
          Nat.lt_of_lt_of_le a4 b2.len⟩
      · obtain ⟨l', hl', h⟩ := b4 c hc
        exact ⟨l', by simp [hl'], h⟩
    · simp only [List.map_cons, List.sum_cons]
      rw [b5 T, conVal_full, b2.value a1 T a4, value_eq a1, a3]
      rfl

/-- A full connection to a node that is not general. -/
theorem full_unit {db : Db} {id : Nat} (h : id < db.nodes.length) (hg : (db.node id).isGeneral = false) :
    UnitCon db (NodeCon.full id) :=
  ⟨h, ⟨by simp [NodeCon.full], by simp [NodeCon.full], by simp [NodeCon.full]⟩, rfl, by simp [NodeCon.full], hg⟩

/-- Full connections to nodes that are not general are closed under merging. -/
def FullCon (db : Db) (c : NodeCon) : Prop := UnitCon db c ∧ c = NodeCon.full c.id

theorem mergeable_full : Mergeable FullCon := by
  refine ⟨fun h => h.1.id, fun _ _ h hc => ⟨h.unit hc.1, hc.2⟩, fun {db l r} hw hl hr => ?_⟩
  obtain ⟨h1, h2, h3, h4⟩ := mergeCons_unit hw hl.1 hr.1
  refine ⟨h1, h2, ⟨h3, ?_⟩, h4⟩
  unfold mergeCons
  rw [if_neg (by rw [hl.1.mult]; omega)]
  rfl

/-- `lit_tree`. -/
theorem litTree_spec {db : Db} (hw : db.WF) {lits : List Lit} (hne : lits ≠ []) :
    ∃ id db', litTree db lits = (some id, db') ∧ db'.WF ∧ Ext lits db db' ∧ id < db'.nodes.length ∧
      (db'.node id).isGeneral = false ∧ ∀ T, value db' T id = (lits.map fun l => if T l then 1 else 0).sum := by
  unfold litTree
  have h := insertLeaves_spec lits db hw
  simp only at h
  generalize insertLeaves db lits = r at h ⊢
  obtain ⟨cons, db1⟩ := r
  obtain ⟨a1, a2, a3, a4, a5⟩ := h
  simp only at a1 a2 a3 a4 a5 ⊢
  have hne' : cons ≠ [] := by
    intro h; rw [h] at a3; simp at a3; exact hne (by simpa using a3.symm)
  obtain ⟨c, db2, m1, m2, m3, m4, m5⟩ := merge_spec mergeable_full a1 hne' (fun c hc => by
    obtain ⟨l, _, h1, h2, h3⟩ := a4 c hc
    refine ⟨?_, h1⟩
    rw [h1]
    exact full_unit h3 (by rw [h2]; rfl))
  rw [m1]
  refine ⟨c.id, db2, rfl, m2, a2.trans (m3.mono (by simp)), m4.1.id, m4.1.notGeneral, fun T => ?_⟩
  rw [← conVal_full, ← m4.2, m5, a5]

/-- The segments of a list. -/
theorem segments_spec {α : Type} (key : α → Nat) : ∀ l : List α, (segments key l).flatten = l ∧
    ∀ seg ∈ segments key l, seg ≠ [] ∧ ∀ x ∈ seg, ∀ y ∈ seg, key x = key y := by
  intro l
  induction l with
  | nil => simp [segments]
  | cons x xs ih =>
    rw [segments]
    obtain ⟨h1, h2⟩ := ih
    cases hs : segments key xs with
    | nil => rw [hs] at h1; simp at h1; subst h1; simp
    | cons seg segs =>
      rw [hs] at h1 h2
      match seg, h1, h2 with
      | [], h1, h2 => exact absurd rfl (h2 [] (by simp)).1
      | y :: ys, h1, h2 =>
        simp only
        by_cases hk : key x = key y
        · rw [if_pos hk]
          refine ⟨by rw [← h1]; simp, fun seg hseg => ?_⟩
          rcases List.mem_cons.1 hseg with rfl | hseg
          · have hy := (h2 (y :: ys) (by simp)).2
            have hxy : ∀ z ∈ x :: y :: ys, key z = key y := by
              intro z hz
              rcases List.mem_cons.1 hz with rfl | hz
              · exact hk
              · exact hy z hz y (by simp)
            exact ⟨by simp, fun a ha b hb => by rw [hxy a ha, hxy b hb]⟩
          · exact h2 seg (by simp [hseg])
        · rw [if_neg hk]
          refine ⟨by rw [← h1]; simp, fun seg hseg => ?_⟩
          rcases List.mem_cons.1 hseg with rfl | hseg
          · exact ⟨by simp, by simp⟩
          · exact h2 seg hseg

/-- The weighted sum of the literals in a set. -/
def wsumT (T : Lit → Bool) (lits : List (Lit × Nat)) : Nat :=
  (lits.map fun x => if T x.1 then x.2 else 0).sum

theorem wsumT_append (T : Lit → Bool) (a b : List (Lit × Nat)) : wsumT T (a ++ b) = wsumT T a + wsumT T b := by
  unfold wsumT; simp

theorem wsumT_const (T : Lit → Bool) {w : Nat} : ∀ (seg : List (Lit × Nat)), (∀ x ∈ seg, x.2 = w) →
    wsumT T seg = ((seg.map (·.1)).map fun l => if T l then 1 else 0).sum * w := by
  intro seg
  induction seg with
  | nil => intro _; simp [wsumT]
  | cons x seg ih =>
    intro h
    have h1 := ih (fun y hy => h y (by simp [hy]))
    unfold wsumT at h1 ⊢
    simp only [List.map_cons, List.sum_cons]
    rw [h1, h x (by simp), Nat.add_mul]
    split <;> simp

theorem segTrees_spec : ∀ (segs : List (List (Lit × Nat))) (db : Db), db.WF →
    (∀ seg ∈ segs, seg ≠ [] ∧ ∀ x ∈ seg, ∀ y ∈ seg, x.2 = y.2) → (∀ x ∈ segs.flatten, 0 < x.2) →
    ∃ cons db', segTrees db segs = some (cons, db') ∧ db'.WF ∧ Ext (segs.flatten.map (·.1)) db db' ∧
      cons.length = segs.length ∧
      (∀ c ∈ cons, PlainCon db' c ∧ (db'.node c.id).isGeneral = false ∧ ∃ x ∈ segs.flatten, c.multiplier = x.2) ∧
      ∀ T, (cons.map (conVal db' T)).sum = wsumT T segs.flatten := by
  intro segs
  induction segs with
  | nil =>
    intro db hw _ _
    exact ⟨[], db, rfl, hw, Ext.refl _ _, rfl, by simp, by simp [wsumT]⟩
  | cons seg segs ih =>
    intro db hw hseg hpos
    obtain ⟨hne, hk⟩ := hseg seg (by simp)
    match seg, hne with
    | (l, w) :: rest, _ =>
      rw [segTrees]
      simp only [List.headD_cons]
      have hall : ∀ x ∈ (l, w) :: rest, x.2 = w := fun x hx => hk x hx (l, w) (by simp)
      have hw0 : 0 < w := hpos (l, w) (by simp)
      obtain ⟨id, db1, e, a1, a2, a3, a4, a5⟩ := litTree_spec hw (lits := ((l, w) :: rest).map (·.1)) (by simp)
      rw [e]
      have hw1 : ¬ w = 0 := by omega
      simp only [hw1, if_false]
      obtain ⟨cons, db2, e2, b1, b2, b3, b4, b5⟩ := ih db1 a1 (fun s hs => hseg s (by simp [hs]))
        (fun x hx => hpos x (by rw [List.flatten_cons]; exact List.mem_append_right _ hx))
      rw [e2]
      refine ⟨_, _, rfl, b1, ?_, by simp [b3], ?_, fun T => ?_⟩
      · refine (a2.mono ?_).trans (b2.mono ?_)
        · intro x hx; rw [List.flatten_cons, List.map_append]; exact List.mem_append_left _ hx
        · intro x hx; rw [List.flatten_cons, List.map_append]; exact List.mem_append_right _ hx
      · intro c hc
        rcases List.mem_cons.1 hc with rfl | hc
        · refine ⟨⟨Nat.lt_of_lt_of_le a3 b2.len, rfl, rfl, hw0, rfl⟩, ?_, (l, w), by simp, rfl⟩
          rw [show (NodeCon.weighted id w).id = id from rfl, b2.node a3]
          exact a4
        · obtain ⟨q1, q2, x, q3, q4⟩ := b4 c hc
          exact ⟨q1, q2, x, by rw [List.flatten_cons]; exact List.mem_append_right _ q3, q4⟩
      · simp only [List.map_cons, List.sum_cons]
        rw [b5, List.flatten_cons, wsumT_append, conVal_weighted, b2.value a1 T a3, a5,
          wsumT_const T ((l, w) :: rest) hall]

/-- `weighted_lit_tree` for positive weights. -/
theorem weightedLitTree_spec {db : Db} (hw : db.WF) {lits : List (Lit × Nat)} (hne : lits ≠ [])
    (hpos : ∀ x ∈ lits, 0 < x.2) :
    ∃ c db', weightedLitTree db lits = some (some c, db') ∧ db'.WF ∧ Ext (lits.map (·.1)) db db' ∧
      PlainCon db' c ∧ ∀ T, conVal db' T c = wsumT T lits := by
  unfold weightedLitTree
  obtain ⟨hf, hs⟩ := segments_spec (fun x : Lit × Nat => x.2) lits
  obtain ⟨cons, db1, e, a1, a2, a3, a4, a5⟩ := segTrees_spec (segments (fun x : Lit × Nat => x.2) lits) db hw hs
    (by rw [hf]; exact hpos)
  rw [hf] at a2 a5
  simp only [e]
  have hne' : cons ≠ [] := by
    intro h
    rw [h] at a3
    have : segments (fun x : Lit × Nat => x.2) lits = [] := List.length_eq_zero_iff.1 (by simpa using a3.symm)
    rw [this] at hf
    exact hne (by simpa using hf.symm)
  obtain ⟨c, db2, e2, b1, b2, b3, b4⟩ := mergeBalanced_spec mergeable_plain a1 hne' fun c hc => (a4 c hc).1
  rw [e2]
  exact ⟨c, db2, rfl, b1, a2.trans (b2.mono (by simp)), b3, fun T => by rw [b4, a5]⟩

theorem insertBy_perm {α : Type} (key : α → Nat) (x : α) : ∀ l : List α, (insertBy key x l).Perm (x :: l) := by
  intro l
  induction l with
  | nil => exact List.Perm.refl _
  | cons y ys ih =>
    rw [insertBy]
    split
    · exact List.Perm.refl _
    · exact (List.Perm.cons y ih).trans (List.Perm.swap x y ys)

theorem sortBy_perm {α : Type} (key : α → Nat) : ∀ l : List α, (sortBy key l).Perm l := by
  intro l
  induction l with
  | nil => exact List.Perm.refl _
  | cons x xs ih => exact (insertBy_perm key x _).trans (List.Perm.cons x ih)

theorem PlainCon.reweight {db : Db} {c : NodeCon} (h : PlainCon db c) {w : Nat} (hw : 0 < w) :
    PlainCon db (c.reweight w) := ⟨h.id, h.offset, h.divisor, hw, h.limit⟩

theorem conVal_reweight (db : Db) (T : Lit → Bool) (c : NodeCon) (w : Nat) :
    conVal db T (c.reweight w) = conVal db T (c.reweight 1) * w := by
  unfold conVal
  rw [NodeCon.map_eq, NodeCon.map_eq]
  simp only [NodeCon.reweight, Nat.mul_one]
  rfl

theorem conVal_reweight_self (db : Db) (T : Lit → Bool) (c : NodeCon) :
    conVal db T c = conVal db T (c.reweight 1) * c.multiplier := conVal_unweight db T c

/-- Merging plain connections of weight one gives a connection of weight one. -/
def OneCon (db : Db) (c : NodeCon) : Prop := PlainCon db c ∧ c.multiplier = 1

theorem mergeable_one : Mergeable OneCon := by
  refine ⟨fun h => h.1.id, fun _ _ h hc => ⟨h.plain hc.1, hc.2⟩, fun {db l r} hw hl hr => ?_⟩
  obtain ⟨h1, h2, h3, h4⟩ := mergeCons_plain hw hl.1 hr.1
  refine ⟨h1, h2, ⟨h3, ?_⟩, h4⟩
  unfold mergeCons
  rw [if_neg (by rw [hl.2]; omega)]
  rfl

theorem thoroughSegs_spec : ∀ (segs : List (List NodeCon)) (db : Db), db.WF →
    (∀ seg ∈ segs, seg ≠ [] ∧ ∀ x ∈ seg, ∀ y ∈ seg, NodeCon.multiplier x = NodeCon.multiplier y) →
    (∀ c ∈ segs.flatten, PlainCon db c) →
    let r := thoroughSegs db segs
    r.2.WF ∧ Ext [] db r.2 ∧ r.1.length = segs.length ∧ (∀ c ∈ r.1, PlainCon r.2 c) ∧
      ∀ T, (r.1.map (conVal r.2 T)).sum = (segs.flatten.map (conVal db T)).sum := by
  intro segs
  induction segs with
  | nil =>
    intro db hw _ _
    exact ⟨hw, Ext.refl _ _, rfl, by simp [thoroughSegs], by simp [thoroughSegs]⟩
  | cons seg segs ih =>
    intro db hw hseg hc
    obtain ⟨hne, hk⟩ := hseg seg (by simp)
    have hcs : ∀ c ∈ seg, PlainCon db c := fun c h => hc c (by rw [List.flatten_cons]; exact List.mem_append_left _ h)
    have hcr : ∀ c ∈ segs.flatten, PlainCon db c :=
      fun c h => hc c (by rw [List.flatten_cons]; exact List.mem_append_right _ h)
    rw [thoroughSegs]
    by_cases hl : seg.length > 1
    · rw [if_pos hl]
      simp only
      obtain ⟨c0, hc0⟩ : ∃ c0, seg.head? = some c0 := by
        cases seg with
        | nil => exact absurd rfl hne
        | cons c _ => exact ⟨c, rfl⟩
      have hhd : seg.headD (NodeCon.full 0) = c0 := by
        cases seg with
        | nil => exact absurd rfl hne
        | cons c _ => simpa using hc0
      have hmem0 : c0 ∈ seg := List.mem_of_mem_head? hc0
      rw [hhd]
      have hperm := sortBy_perm db.conLen (seg.map fun c => c.reweight 1)
      generalize sortBy db.conLen (seg.map fun c => c.reweight 1) = sorted at hperm ⊢
      have hsc : ∀ c ∈ sorted, OneCon db c := by
        intro c h
        obtain ⟨c', h', rfl⟩ := List.mem_map.1 (hperm.mem_iff.1 h)
        exact ⟨(hcs c' h').reweight (by omega), rfl⟩
      have hsne : sorted ≠ [] := by
        intro h
        rw [h] at hperm
        have := hperm.length_eq
        simp only [List.length_nil, List.length_map] at this
        exact hne (List.length_eq_zero_iff.1 this.symm)
      obtain ⟨c, db1, e, a1, a2, a3, a4⟩ := mergeBalanced_spec mergeable_one hw hsne hsc
      rw [e]
      simp only [Option.getD_some]
      have h2 := ih db1 a1 (fun s hs => hseg s (by simp [hs])) (fun c h => a2.plain (hcr c h))
      simp only at h2
      generalize thoroughSegs db1 segs = r2 at h2 ⊢
      obtain ⟨cons, db2⟩ := r2
      obtain ⟨b1, b2, b3, b4, b5⟩ := h2
      simp only at b1 b2 b3 b4 b5 ⊢
      have hm0 := (hcs c0 hmem0).mult
      refine ⟨b1, a2.trans b2, by simp [b3], ?_, fun T => ?_⟩
      · intro x hx
        rcases List.mem_cons.1 hx with rfl | hx
        · exact b2.plain (a3.1.reweight hm0)
        · exact b4 x hx
      · simp only [List.map_cons, List.sum_cons, List.flatten_cons, List.map_append, List.sum_append]
        rw [b5]
        have hrest : segs.flatten.map (conVal db1 T) = segs.flatten.map (conVal db T) := by
          apply List.map_congr_left
          intro x h
          exact a2.conVal hw T (hcr x h).id
        rw [hrest]
        congr 1
        rw [conVal_reweight]
        have hc1 : conVal db2 T (c.reweight 1) = conVal db1 T c := by
          have : c.reweight 1 = c := by
            have := a3.2
            cases c
            simp only [NodeCon.reweight] at this ⊢
            rw [this]
          rw [this, b2.conVal a1 T a3.1.id]
        rw [hc1, a4, (hperm.map (conVal db T)).sum_nat]
        have : ∀ (s : List NodeCon), (∀ x ∈ s, x.multiplier = c0.multiplier) →
            ((s.map fun c => c.reweight 1).map (conVal db T)).sum * c0.multiplier = (s.map (conVal db T)).sum := by
          intro s
          induction s with
          | nil => intro _; simp
          | cons x s ihs =>
            intro h
            simp only [List.map_cons, List.sum_cons, Nat.add_mul]
            rw [ihs (fun y hy => h y (by simp [hy])), conVal_reweight_self db T x, h x (by simp)]
        exact this seg (fun x hx => hk x hx c0 hmem0)
    · rw [if_neg hl]
      match seg, hne with
      | [c], _ =>
        simp only [List.headD_cons]
        have h2 := ih db hw (fun s hs => hseg s (by simp [hs])) hcr
        simp only at h2
        generalize thoroughSegs db segs = r2 at h2 ⊢
        obtain ⟨cons, db2⟩ := r2
        obtain ⟨b1, b2, b3, b4, b5⟩ := h2
        simp only at b1 b2 b3 b4 b5 ⊢
        refine ⟨b1, b2, by simp [b3], ?_, fun T => ?_⟩
        · intro x hx
          rcases List.mem_cons.1 hx with rfl | hx
          · exact b2.plain (hcs x (by simp))
          · exact b4 x hx
        · simp only [List.map_cons, List.sum_cons, List.flatten_cons, List.map_append, List.sum_append]
          rw [b5, b2.conVal hw T (hcs c (by simp)).id]
          simp
      | _ :: _ :: _, _ => simp at hl

/-- `merge_thorough`. -/
theorem mergeThorough_spec {db : Db} (hw : db.WF) {cons : List NodeCon} (hne : cons ≠ [])
    (hc : ∀ c ∈ cons, PlainCon db c) :
    ∃ c db', mergeThorough db cons = (some c, db') ∧ db'.WF ∧ Ext [] db db' ∧ PlainCon db' c ∧
      ∀ T, conVal db' T c = (cons.map (conVal db T)).sum := by
  unfold mergeThorough
  have he : cons.isEmpty = false := by simpa using hne
  rw [he]
  simp only [Bool.false_eq_true, if_false]
  have hp := sortBy_perm NodeCon.multiplier cons
  obtain ⟨hf, hs⟩ := segments_spec NodeCon.multiplier (sortBy NodeCon.multiplier cons)
  have h := thoroughSegs_spec (segments NodeCon.multiplier (sortBy NodeCon.multiplier cons)) db hw hs
    (by rw [hf]; exact fun c h => hc c (hp.mem_iff.1 h))
  simp only at h
  rw [hf] at h
  have hsegne : (segments NodeCon.multiplier (sortBy NodeCon.multiplier cons)).length ≠ 0 := by
    intro h0
    rw [List.length_eq_zero_iff.1 h0] at hf
    have := hp.length_eq
    rw [← hf] at this
    simp only [List.length_nil, List.flatten_nil] at this
    exact hne (List.length_eq_zero_iff.1 this.symm)
  generalize thoroughSegs db (segments NodeCon.multiplier (sortBy NodeCon.multiplier cons)) = r at h ⊢
  obtain ⟨merged, db1⟩ := r
  obtain ⟨a1, a2, a3, a4, a5⟩ := h
  simp only at a1 a2 a3 a4 a5 ⊢
  have hp2 := sortBy_perm db1.conLen merged
  obtain ⟨c, db2, e, b1, b2, b3, b4⟩ := mergeBalanced_spec mergeable_plain a1 (cons := sortBy db1.conLen merged)
    (by
      intro h0
      rw [h0] at hp2
      have := hp2.length_eq
      simp at this
      omega)
    (fun c h => a4 c (hp2.mem_iff.1 h))
  refine ⟨c, db2, e, b1, a2.trans b2, b3, fun T => ?_⟩
  rw [b4, (hp2.map _).sum_nat, a5, (hp.map _).sum_nat]

end TotDb
end RustSat
