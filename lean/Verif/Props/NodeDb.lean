import Verif.Lemmas.Trees
/-
C32: trees built over literals and connections.

`value db T id` (Spec/TotDb.lean) is the value of a node if exactly the literals in `T` are true. As `T` ranges over
all sets of literals, the value equations determine the leaves of a tree with their multiplicities and weights:
the weight of a literal is the value for the set that only contains this literal.
`Db.WF` is the invariant of the database; it holds initially and is preserved by all operations.
-/
namespace RustSat
namespace TotDb

theorem empty_WF : Db.empty.WF :=
  ⟨by intro i n h; simp [Db.empty] at h, by intro l id h; simp [Db.empty] at h, by intro id h; simp [Db.empty] at h⟩

theorem sum_countP (T : Lit → Bool) (lits : List Lit) :
    (lits.map fun l => if T l then 1 else 0).sum = lits.countP T := by
  induction lits with
  | nil => rfl
  | cons l ls ih =>
    simp only [List.map_cons, List.sum_cons, List.countP_cons]
    rw [ih]; omega

theorem Ext.prefix {L : List Lit} {a b : Db} (h : Ext L a b) : a.nodes <+: b.nodes := by
  obtain ⟨s, hs, _⟩ := h
  exact ⟨s, hs.symm⟩

/-- **C32.** `lit_tree` returns a node whose value is the number of true literals of the list, counted with
multiplicity. Existing nodes are untouched. -/
theorem C32_lit_tree (db : Db) (hw : db.WF) (lits : List Lit) (hne : lits ≠ []) :
    ∃ id db', litTree db lits = (some id, db') ∧ db'.WF ∧ db.nodes <+: db'.nodes ∧
      ∀ T, value db' T id = lits.countP T := by
  obtain ⟨id, db', h1, h2, h3, _, _, h6⟩ := litTree_spec hw hne
  exact ⟨id, db', h1, h2, h3.prefix, fun T => by rw [h6, sum_countP]⟩

example : let r := litTree Db.empty [Lit.pos 0, Lit.pos 1, Lit.negOf 2, Lit.pos 0, Lit.pos 4]
    r.1 = some 7 ∧ value r.2 (fun l => l = Lit.pos 0 || l = Lit.pos 4) 7 = 3 ∧ r.2.nodes.length = 8 := by decide

/-- **C32.** The tree over no literals does not exist. -/
theorem C32_lit_tree_empty (db : Db) : litTree db [] = (none, db) := rfl

/-- **C32.** `weighted_lit_tree` for positive weights returns a connection whose value is the sum of the weights of
the true literals, counted with multiplicity. Existing nodes are untouched. -/
theorem C32_weighted_lit_tree (db : Db) (hw : db.WF) (lits : List (Lit × Nat)) (hne : lits ≠ [])
    (hpos : ∀ x ∈ lits, 0 < x.2) :
    ∃ c db', weightedLitTree db lits = some (some c, db') ∧ db'.WF ∧ db.nodes <+: db'.nodes ∧
      ∀ T, conVal db' T c = (lits.map fun x => if T x.1 then x.2 else 0).sum := by
  obtain ⟨c, db', h1, h2, h3, _, h5⟩ := weightedLitTree_spec hw hne hpos
  exact ⟨c, db', h1, h2, h3.prefix, h5⟩

/-- Non-vacuity. -/
example : ∃ c db', weightedLitTree Db.empty [(Lit.pos 0, 2), (Lit.pos 1, 2), (Lit.pos 2, 3), (Lit.pos 3, 7)] =
      some (some c, db') ∧ conVal db' (fun l => l = Lit.pos 1 || l = Lit.pos 3) c = 9 :=
  ⟨_, _, rfl, by decide⟩

/-- **C32, violated for weight zero.** A literal of weight zero makes the construction panic. -/
theorem C32_violated_zero_weight : weightedLitTree Db.empty [(Lit.pos 0, 0), (Lit.pos 1, 1)] = none := by decide

/-- **C32.** `merge` returns a connection whose value is the sum of the values of the given connections: for full
weighted connections to arbitrary nodes, and for unweighted connections with offsets, divisors and limits to nodes
with consecutive values. -/
theorem C32_merge (db : Db) (hw : db.WF) (cons : List NodeCon) (hne : cons ≠ [])
    (hc : (∀ c ∈ cons, PlainCon db c) ∨ (∀ c ∈ cons, UnitCon db c)) :
    ∃ c db', merge db cons = (some c, db') ∧ db'.WF ∧ db.nodes <+: db'.nodes ∧
      ∀ T, conVal db' T c = (cons.map (conVal db T)).sum := by
  rcases hc with hc | hc
  · obtain ⟨c, db', h1, h2, h3, _, h5⟩ := merge_spec mergeable_plain hw hne hc
    exact ⟨c, db', h1, h2, h3.prefix, h5⟩
  · obtain ⟨c, db', h1, h2, h3, _, h5⟩ := merge_spec mergeable_unit hw hne hc
    exact ⟨c, db', h1, h2, h3.prefix, h5⟩

/-- **C32.** The same for `merge_balanced`. -/
theorem C32_merge_balanced (db : Db) (hw : db.WF) (cons : List NodeCon) (hne : cons ≠ [])
    (hc : (∀ c ∈ cons, PlainCon db c) ∨ (∀ c ∈ cons, UnitCon db c)) :
    ∃ c db', mergeBalanced db cons = (some c, db') ∧ db'.WF ∧ db.nodes <+: db'.nodes ∧
      ∀ T, conVal db' T c = (cons.map (conVal db T)).sum := by
  rcases hc with hc | hc
  · obtain ⟨c, db', h1, h2, h3, _, h5⟩ := mergeBalanced_spec mergeable_plain hw hne hc
    exact ⟨c, db', h1, h2, h3.prefix, h5⟩
  · obtain ⟨c, db', h1, h2, h3, _, h5⟩ := mergeBalanced_spec mergeable_unit hw hne hc
    exact ⟨c, db', h1, h2, h3.prefix, h5⟩

/-- **C32.** The same for `merge_thorough`, for full weighted connections. -/
theorem C32_merge_thorough (db : Db) (hw : db.WF) (cons : List NodeCon) (hne : cons ≠ [])
    (hc : ∀ c ∈ cons, PlainCon db c) :
    ∃ c db', mergeThorough db cons = (some c, db') ∧ db'.WF ∧ db.nodes <+: db'.nodes ∧
      ∀ T, conVal db' T c = (cons.map (conVal db T)).sum := by
  obtain ⟨c, db', h1, h2, h3, _, h5⟩ := mergeThorough_spec hw hne hc
  exact ⟨c, db', h1, h2, h3.prefix, h5⟩

/-- Non-vacuity: connections with an offset and a limit to a tree over five literals. -/
example : let db := (litTree Db.empty ((List.range 5).map Lit.pos)).2
    let cons : List NodeCon := [⟨8, 1, 1, 1, some 2⟩, ⟨8, 0, 2, 1, none⟩, ⟨5, 0, 1, 1, none⟩]
    (cons.map (conVal db fun _ => true)) = [2, 2, 2] ∧
      ∃ c db', merge db cons = (some c, db') ∧ conVal db' (fun _ => true) c = 6 ∧
        conVal db' (fun l => l.var != 1) c = 5 := ⟨by decide, _, _, rfl, by decide⟩
example : let db := (litTree Db.empty ((List.range 5).map Lit.pos)).2
    UnitCon db ⟨8, 1, 1, 1, some 2⟩ :=
  ⟨by decide, ⟨by decide, by decide, by intro k h; cases h; decide⟩, rfl, by decide, by decide⟩
example : let db := (litTree Db.empty ((List.range 5).map Lit.pos)).2
    PlainCon db (NodeCon.weighted 8 3) := ⟨by decide, rfl, rfl, by decide, rfl⟩

/-- **C32.** The invariant of the database holds initially. -/
theorem C32_wf_empty : Db.empty.WF := empty_WF

/-- **C32.** The values of an internal node of a generalized totalizer are exactly the left values, the right
values and the sums of a left and a right value, in strictly increasing order. -/
theorem C32_general_values (lvals rvals : List Nat) (hl : lvals.Pairwise (· < ·)) (hr : rvals.Pairwise (· < ·)) :
    (generalVals lvals rvals).Pairwise (· < ·) ∧
    ∀ v, v ∈ generalVals lvals rvals ↔ v ∈ lvals ∨ v ∈ rvals ∨ ∃ x ∈ lvals, ∃ y ∈ rvals, v = x + y :=
  generalVals_spec hl hr

example : generalVals [2, 5] [1, 2, 3, 9] = [1, 2, 3, 4, 5, 6, 7, 8, 9, 11, 14] := by decide

end TotDb
end RustSat
