import Verif.Lemmas.Att
/-
The values attained at the root of a tree of weighted literals have no gaps larger than the largest weight.
-/
namespace RustSat
namespace TotDb

theorem Gap.mono {db : Db} {c : NodeCon} {M M' : Nat} (h : Gap db c M) (hM : M ≤ M') : Gap db c M' := by
  intro T b hb
  obtain ⟨v, h1, h2, h3⟩ := h T b hb
  exact ⟨v, h1, h2, by omega⟩

theorem Gap.ext {dm : Prop} {L : List Lit} {a b : Db} {c : NodeCon} {M : Nat} (hwa : a.WF) (hwb : b.WF) (h : ExtD dm L a b)
    (hc : c.id < a.nodes.length) (hg : Gap a c M) : Gap b c M := by
  intro T x hx
  rw [h.conVal hwa T hc] at hx
  obtain ⟨v, ⟨u, h1, h2⟩, h3⟩ := hg T x hx
  exact ⟨v, ⟨u, (h.att hwa hwb hc).2 h1, h2⟩, h3⟩

/-- A node with two children without large gaps. -/
theorem gap_inner {db : Db} (hw : db.WF) {l r l' r' c : NodeCon} {M : Nat} (hs : (db.node c.id).shape = .inner l' r')
    (hl : l'.id = l.id) (hr : r'.id = r.id) (hm : ∀ u w, c.map (l'.map u + r'.map w) = l.map u + r.map w)
    (hv : ∀ T, conVal db T c = conVal db T l + conVal db T r) (gl : Gap db l M) (gr : Gap db r M) : Gap db c M := by
  intro T b hb
  rw [hv] at hb
  rcases Nat.lt_or_ge b (conVal db T l) with h | h
  · obtain ⟨v, ⟨u, h1, h2⟩, h3, h4⟩ := gl T b h
    refine ⟨v, ⟨l'.map u + r'.map 0, .inner _ l' r' u 0 hs (by rw [hl]; exact h1) (.zero _), ?_⟩, h3, h4⟩
    rw [hm, NodeCon.map_zero, h2, Nat.add_zero]
  · obtain ⟨v, ⟨u, h1, h2⟩, h3, h4⟩ := gr T (b - conVal db T l) (by omega)
    refine ⟨conVal db T l + v, ⟨l'.map (value db T l.id) + r'.map u,
      .inner _ l' r' _ u hs (by rw [hl]; exact att_value hw T _) (by rw [hr]; exact h1), ?_⟩, by omega, by omega⟩
    rw [hm, h2]
    rfl

/-- Connections without large gaps are closed under merging. -/
def GapCon (M : Nat) (db : Db) (c : NodeCon) : Prop := PlainCon db c ∧ Gap db c M

theorem mergeable_gap (M : Nat) : Mergeable (GapCon M) := by
  refine ⟨fun h => h.1.id, fun ha hb h hc => ⟨h.plain hc.1, hc.2.ext ha hb h hc.1.id⟩, fun {db l r} hw hl hr => ?_⟩
  obtain ⟨h1, h2, h3, h4⟩ := mergeCons_plain hw hl.1 hr.1
  refine ⟨h1, h2, ⟨h3, ?_⟩, h4⟩
  have gl := hl.2.ext hw h1 h2 hl.1.id
  have gr := hr.2.ext hw h1 h2 hr.1.id
  have hv : ∀ T, conVal (mergeCons db l r).2 T (mergeCons db l r).1 =
      conVal (mergeCons db l r).2 T l + conVal (mergeCons db l r).2 T r := fun T => by
    rw [h4, h2.conVal hw T hl.1.id, h2.conVal hw T hr.1.id]
  unfold mergeCons at h1 gl gr hv ⊢
  by_cases hc : l.multiplier > 1 ∧ l.multiplier = r.multiplier
  · rw [if_pos hc] at h1 gl gr hv ⊢
    simp only at h1 gl gr hv ⊢
    have hl' : PlainCon db { l with multiplier := 1 } := ⟨hl.1.id, hl.1.offset, hl.1.divisor, by simp, hl.1.limit⟩
    have hr' : PlainCon db { r with multiplier := 1 } := ⟨hr.1.id, hr.1.offset, hr.1.divisor, by simp, hr.1.limit⟩
    have h := internal_insert hw hl'.id hr'.id (internal_plain_ok hw hl' hr' (by simp))
    simp only at h
    generalize db.insert (Node.internal { l with multiplier := 1 } { r with multiplier := 1 } db) = res at h h1 gl gr hv ⊢
    obtain ⟨id, db'⟩ := res
    refine gap_inner h1 (l := l) (r := r) (l' := { l with multiplier := 1 }) (r' := { r with multiplier := 1 }) (by
      show (db'.node id).shape = _
      rw [h.2.2.1, internal_shape]) rfl rfl (fun u w => ?_) hv gl gr
    rw [hl'.map, hr'.map, hl.1.map, hr.1.map, NodeCon.map_eq]
    simp only [NodeCon.weighted, NodeCon.steps, Nat.mul_one, Nat.sub_zero, Nat.div_one]
    rw [← hc.2, Nat.add_mul]
  · rw [if_neg hc] at h1 gl gr hv ⊢
    simp only at h1 gl gr hv ⊢
    have h := internal_insert hw hl.1.id hr.1.id (internal_plain_ok hw hl.1 hr.1 hc)
    simp only at h
    generalize db.insert (Node.internal l r db) = res at h h1 gl gr hv ⊢
    obtain ⟨id, db'⟩ := res
    refine gap_inner h1 (l' := l) (r' := r) (by
      show (db'.node id).shape = _
      rw [h.2.2.1, internal_shape]) rfl rfl (fun u w => ?_) hv gl gr
    rw [NodeCon.map_eq]
    simp [NodeCon.full, NodeCon.steps]

/-- A connection to a node with consecutive values has gaps of its multiplier. -/
theorem gap_unit {db : Db} (hw : db.WF) {c : NodeCon} (hc : PlainCon db c) (hg : (db.node c.id).isGeneral = false) :
    Gap db c c.multiplier := by
  intro T b hb
  have hm := hc.mult
  unfold conVal at hb
  rw [hc.map] at hb
  refine ⟨(b / c.multiplier + 1) * c.multiplier, ⟨b / c.multiplier + 1, att_unit hw T c.id hg _ ?_, by rw [hc.map]⟩, ?_, ?_⟩
  · exact (Nat.div_lt_iff_lt_mul hm).2 hb
  · have e := Nat.div_add_mod b c.multiplier
    have hlt := Nat.mod_lt b hm
    rw [Nat.add_mul, Nat.one_mul, Nat.mul_comm]
    omega
  · have e := Nat.div_add_mod b c.multiplier
    rw [Nat.add_mul, Nat.one_mul, Nat.mul_comm (b / c.multiplier)]
    omega

end TotDb
end RustSat
