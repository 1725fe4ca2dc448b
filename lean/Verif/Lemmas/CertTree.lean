import Verif.Lemmas.Totalizer
import Verif.Lemmas.Weighted
import Verif.Model.CertDb
/-
The trees built by encoders with certified functions: all connections are plain. The leaves of a tree.
-/
namespace RustSat
namespace TotDb

/-- A tree in which all connections are without offset and length limit, with the number of leaves stored. -/
inductive Good (db : Db) : Nat → Prop
  | leaf {id : Nat} {l : Lit} (h : db.node id = .leaf l) : Good db id
  | inner {id : Nat} {l r : NodeCon} (h : (db.node id).shape = .inner l r) (hl : PlainCon db l) (hr : PlainCon db r)
      (hn : (db.node id).nLeaves = (db.node l.id).nLeaves + (db.node r.id).nLeaves)
      (gl : Good db l.id) (gr : Good db r.id) : Good db id

theorem Good.lt {db : Db} {id : Nat} (h : Good db id) : id < db.nodes.length := by
  cases h with
  | leaf h => exact Db.node_lt (by rw [h]; exact fun h => by cases h)
  | inner h => exact Db.node_lt (by intro e; rw [e] at h; cases h)

theorem Good.ext {a b : Db} {dm : Prop} {L : List Lit} (h : ExtD dm L a b) {id : Nat} (hg : Good a id) : Good b id := by
  induction hg with
  | leaf e => exact .leaf (by rw [h.node (Good.leaf e).lt]; exact e)
  | @inner id l r e hl hr hn gl gr il ir =>
    have hid := (Good.inner e hl hr hn gl gr).lt
    refine .inner (by rw [h.node hid]; exact e) (h.plain hl) (h.plain hr) ?_ il ir
    rw [h.node hid, h.node gl.lt, h.node gr.lt, hn]

theorem NodeRel.nLeaves {R : LitData → LitData → Prop} {n n' : Node} (h : NodeRel R n n') : n'.nLeaves = n.nLeaves := by
  cases n <;> cases n' <;> first | rfl | exact absurd h (fun h => h) | exact h.2.1.symm

theorem Good.rel {a b : Db} {R : LitData → LitData → Prop} (h : DbRel R a b) {id : Nat} (hg : Good a id) : Good b id := by
  induction hg with
  | leaf e => exact .leaf (h.leaf.2 e)
  | @inner id l r e hl hr hn gl gr il ir =>
    refine .inner (by rw [h.shape]; exact e) (h.plain hl) (h.plain hr) ?_ il ir
    rw [(h.node _).nLeaves, (h.node _).nLeaves, (h.node _).nLeaves, hn]

theorem Good.notDummy {db : Db} {id : Nat} (h : Good db id) : db.node id ≠ .dummy := by
  cases h with
  | leaf h => rw [h]; exact fun h => by cases h
  | inner h => intro e; rw [e] at h; cases h

theorem conLeaves_plain {db : Db} {c : NodeCon} (h : PlainCon db c) : conLeaves db c = (db.node c.id).nLeaves := by
  unfold conLeaves
  rw [h.limit]
  simp only
  rw [if_pos h.offset]

theorem internal_nLeaves (l r : NodeCon) (db : Db) :
    (Node.internal l r db).nLeaves = conLeaves db l + conLeaves db r := by
  unfold Node.internal
  simp only
  split <;> rfl

/-- Merging good trees. -/
theorem Good.merge {db : Db} (hw : db.WF) {l r : NodeCon} (hl : PlainCon db l) (hr : PlainCon db r)
    (gl : Good db l.id) (gr : Good db r.id) : Good (mergeCons db l r).2 (mergeCons db l r).1.id := by
  unfold mergeCons
  by_cases hc : l.multiplier > 1 ∧ l.multiplier = r.multiplier
  · rw [if_pos hc]
    simp only
    have hl' : PlainCon db { l with multiplier := 1 } := ⟨hl.id, hl.offset, hl.divisor, by simp, hl.limit⟩
    have hr' : PlainCon db { r with multiplier := 1 } := ⟨hr.id, hr.offset, hr.divisor, by simp, hr.limit⟩
    have h := internal_insert hw hl'.id hr'.id (internal_plain_ok hw hl' hr' (by simp))
    simp only at h
    generalize db.insert (Node.internal { l with multiplier := 1 } { r with multiplier := 1 } db) = res at h ⊢
    obtain ⟨id, db'⟩ := res
    obtain ⟨h1, h2, h3, h4, h5⟩ := h
    simp only at h3 h2 ⊢
    refine .inner (by rw [show (NodeCon.weighted id l.multiplier).id = id from rfl, h3, internal_shape]) (h2.plain hl') (h2.plain hr') ?_ (gl.ext h2) (gr.ext h2)
    rw [show (NodeCon.weighted id l.multiplier).id = id from rfl, h3, internal_nLeaves, conLeaves_plain hl', conLeaves_plain hr', h2.node gl.lt, h2.node gr.lt]
  · rw [if_neg hc]
    simp only
    have h := internal_insert hw hl.id hr.id (internal_plain_ok hw hl hr hc)
    simp only at h
    generalize db.insert (Node.internal l r db) = res at h ⊢
    obtain ⟨id, db'⟩ := res
    obtain ⟨h1, h2, h3, h4, h5⟩ := h
    simp only at h3 h2 ⊢
    refine .inner (by rw [show (NodeCon.full id).id = id from rfl, h3, internal_shape]) (h2.plain hl) (h2.plain hr) ?_ (gl.ext h2) (gr.ext h2)
    rw [show (NodeCon.full id).id = id from rfl, h3, internal_nLeaves, conLeaves_plain hl, conLeaves_plain hr, h2.node gl.lt, h2.node gr.lt]

/-- Merging keeps trees good. -/
theorem mergeable_good {P : Db → NodeCon → Prop} (hP : Mergeable P) (hp : ∀ db c, P db c → PlainCon db c) :
    Mergeable fun db c => P db c ∧ Good db c.id := by
  refine ⟨fun h => hP.id h.1, fun ha hb h hc => ⟨hP.ext ha hb h hc.1, hc.2.ext h⟩, fun {db l r} hw hl hr => ?_⟩
  obtain ⟨h1, h2, h3, h4⟩ := hP.merge hw hl.1 hr.1
  exact ⟨h1, h2, ⟨h3, Good.merge hw (hp _ _ hl.1) (hp _ _ hr.1) hl.2 hr.2⟩, h4⟩

theorem FullCon.plain {db : Db} {c : NodeCon} (h : FullCon db c) : PlainCon db c := by
  have h2 := h.2
  exact ⟨h.1.id, by rw [h2]; rfl, by rw [h2]; rfl, by rw [h2]; simp [NodeCon.full], by rw [h2]; rfl⟩

/-- `lit_tree` builds a good tree. -/
theorem litTree_good {db : Db} (hw : db.WF) {lits : List Lit} {id : Nat} {db' : Db} (h : litTree db lits = (some id, db')) :
    Good db' id := by
  unfold litTree at h
  have hi := insertLeaves_spec lits db hw
  simp only at hi
  generalize insertLeaves db lits = r at h hi
  obtain ⟨cons, db1⟩ := r
  obtain ⟨a1, a2, a3, a4, a5⟩ := hi
  simp only at a1 a2 a3 a4 a5 h
  by_cases hne : cons = []
  · subst hne
    have hm : TotDb.merge db1 [] = (none, db1) := by unfold TotDb.merge; simp
    rw [hm] at h
    simp at h
  · obtain ⟨c, db2, m1, m2, m3, m4, m5⟩ := merge_spec (mergeable_good mergeable_full fun _ _ h => h.plain) a1 hne (fun c hc => by
      obtain ⟨l, _, h1, h2, h3⟩ := a4 c hc
      refine ⟨⟨?_, h1⟩, .leaf h2⟩
      rw [h1]
      exact full_unit h3 (by rw [h2]; rfl))
    rw [m1] at h
    simp only [Option.map_some, Prod.mk.injEq, Option.some.injEq] at h
    obtain ⟨rfl, rfl⟩ := h
    exact m4.2

/-- Recursion of `leafLitsF` by shape. -/
theorem leafLitsF_succ (db : Db) (fuel id : Nat) :
    leafLitsF db (fuel + 1) id = match (db.node id).shape with
      | .leaf l => [(l, 1)]
      | .inner l r => ((leafLitsF db fuel l.id).map fun x => (x.1, x.2 * l.multiplier)) ++
          ((leafLitsF db fuel r.id).map fun x => (x.1, x.2 * r.multiplier))
      | .dummy => [] := by
  rw [leafLitsF]
  cases db.node id <;> rfl

theorem leafLitsF_congr {db db' : Db} (h : db.WF) (n : Nat)
    (hs : ∀ j, j < n → (db.node j).shape = (db'.node j).shape) :
    ∀ fuel id, id < n → leafLitsF db fuel id = leafLitsF db' fuel id := by
  intro fuel
  induction fuel with
  | zero => intro id _; rfl
  | succ fuel ih =>
    intro id hid
    rw [leafLitsF_succ, leafLitsF_succ, ← hs id hid]
    cases hsh : (db.node id).shape with
    | leaf l => rfl
    | dummy => rfl
    | inner l r =>
      have := h.children hsh
      simp only
      rw [ih l.id (by omega), ih r.id (by omega)]

theorem leafLitsF_fuel {db : Db} (h : db.WF) : ∀ fuel id, id < fuel → leafLitsF db fuel id = leafLits db id := by
  have key : ∀ fuel fuel' id, id < fuel → id < fuel' → leafLitsF db fuel id = leafLitsF db fuel' id := by
    intro fuel
    induction fuel with
    | zero => intro _ _ h; omega
    | succ fuel ih =>
      intro fuel' id h1 h2
      obtain ⟨f', rfl⟩ : ∃ f', fuel' = f' + 1 := ⟨fuel' - 1, by omega⟩
      rw [leafLitsF_succ, leafLitsF_succ]
      cases hsh : (db.node id).shape with
      | leaf l => rfl
      | dummy => rfl
      | inner l r =>
        have := h.children hsh
        simp only
        rw [ih f' l.id (by omega) (by omega), ih f' r.id (by omega) (by omega)]
  intro fuel id hid
  exact key fuel (id + 1) id hid (by omega)

/-- The leaves below a node. -/
theorem leafLits_eq {db : Db} (h : db.WF) (id : Nat) :
    leafLits db id = match (db.node id).shape with
      | .leaf l => [(l, 1)]
      | .inner l r => ((leafLits db l.id).map fun x => (x.1, x.2 * l.multiplier)) ++
          ((leafLits db r.id).map fun x => (x.1, x.2 * r.multiplier))
      | .dummy => [] := by
  unfold leafLits
  rw [leafLitsF_succ]
  cases hsh : (db.node id).shape with
  | leaf l => rfl
  | dummy => rfl
  | inner l r =>
    have := h.children hsh
    simp only
    rw [leafLitsF_fuel h id l.id this.1, leafLitsF_fuel h id r.id this.2]
    rfl

theorem leafLits_rel {R : LitData → LitData → Prop} {db db' : Db} (h : DbRel R db db') (hw : db.WF) (id : Nat) :
    leafLits db' id = leafLits db id :=
  (leafLitsF_congr hw (id + 1) (fun j _ => (h.shape j).symm) (id + 1) id (by omega)).symm

theorem wsumT_map_mul (T : Lit → Bool) (k : Nat) (l : List (Lit × Nat)) :
    wsumT T (l.map fun x => (x.1, x.2 * k)) = wsumT T l * k := by
  induction l with
  | nil => simp [wsumT]
  | cons x l ih =>
    unfold wsumT at ih ⊢
    simp only [List.map_cons, List.sum_cons, Nat.add_mul]
    rw [ih]
    by_cases h : T x.1 = true
    · rw [if_pos h, if_pos h]
    · rw [if_neg h, if_neg h, Nat.zero_mul]

namespace Good
variable {db : Db}

theorem leaves_len (hw : db.WF) {id : Nat} (h : Good db id) : (leafLits db id).length = (db.node id).nLeaves := by
  induction h with
  | leaf e => rw [leafLits_eq hw, e]; rfl
  | inner e hl hr hn gl gr il ir =>
    rw [leafLits_eq hw, e, hn]
    simp only [List.length_append, List.length_map]
    rw [il, ir]

theorem leaves_sum (hw : db.WF) {id : Nat} (h : Good db id) (T : Lit → Bool) :
    wsumT T (leafLits db id) = value db T id := by
  induction h with
  | leaf e => rw [leafLits_eq hw, value_eq hw, e]; simp [wsumT, Node.shape]
  | inner e hl hr hn gl gr il ir =>
    rw [leafLits_eq hw, value_eq hw, e]
    simp only
    rw [wsumT_append, wsumT_map_mul, wsumT_map_mul, il, ir]
    unfold conVal
    rw [hl.map, hr.map]

theorem leaves_leaf (hw : db.WF) {id : Nat} (h : Good db id) : ∀ x ∈ leafLits db id, ∃ j, db.node j = .leaf x.1 := by
  induction h with
  | @leaf id l e =>
    rw [leafLits_eq hw, e]
    intro x hx
    have : x = (l, 1) := by simpa [Node.shape] using hx
    rw [this]
    exact ⟨id, e⟩
  | inner e hl hr hn gl gr il ir =>
    rw [leafLits_eq hw, e]
    intro x hx
    simp only [List.mem_append, List.mem_map] at hx
    rcases hx with ⟨y, hy, rfl⟩ | ⟨y, hy, rfl⟩
    · exact il y hy
    · exact ir y hy

/-- The children of a unit node. -/
theorem unit (hw : db.WF) {id : Nat} (h : Good db id) {lits : List LitData} {dp nl : Nat} {lc rc : NodeCon}
    (hn : db.node id = .unit lits dp nl lc rc) :
    Good db lc.id ∧ Good db rc.id ∧ PlainCon db lc ∧ PlainCon db rc ∧ lc.multiplier = 1 ∧ rc.multiplier = 1 ∧
      (db.node lc.id).isGeneral = false ∧ (db.node rc.id).isGeneral = false ∧
      nl = (db.node lc.id).nLeaves + (db.node rc.id).nLeaves ∧
      lits.length = (db.node lc.id).len + (db.node rc.id).len ∧ lc.id < id ∧ rc.id < id := by
  have hok := hw.nodes id _ (Db.getElem?_node h.lt)
  rw [hn] at hok
  obtain ⟨o1, o2, ucl, ucr, olen⟩ := hok
  cases h with
  | leaf e => rw [hn] at e; cases e
  | inner e hl hr hnl gl gr =>
    rw [hn] at e
    injection e with e1 e2
    subst e1 e2
    rw [hn] at hnl
    refine ⟨gl, gr, hl, hr, ucl.mult, ucr.mult, ucl.notGeneral, ucr.notGeneral, hnl, ?_, o1, o2⟩
    rw [olen]
    unfold Db.conLen
    rw [hl.limit, hr.limit, hl.offset, hr.offset, hl.divisor, hr.divisor]
    simp

theorem leaves_ones (hw : db.WF) {id : Nat} (h : Good db id) :
    (db.node id).isGeneral = false → ∀ x ∈ leafLits db id, x.2 = 1 := by
  induction id using Nat.strongRecOn with
  | _ id ih =>
    intro hg x hx
    rw [leafLits_eq hw] at hx
    cases hn : db.node id with
    | dummy => exact absurd hn h.notDummy
    | general => rw [hn] at hg; cases hg
    | leaf l =>
      rw [hn] at hx
      have : x = (l, 1) := by simpa [Node.shape] using hx
      rw [this]
    | unit lits dp nl lc rc =>
      obtain ⟨gl, gr, hl, hr, m1, m2, n1, n2, -, -, o1, o2⟩ := h.unit hw hn
      rw [hn] at hx
      simp only [Node.shape, List.mem_append, List.mem_map] at hx
      rcases hx with ⟨y, hy, rfl⟩ | ⟨y, hy, rfl⟩
      · rw [m1, ih _ o1 gl n1 y hy]
      · rw [m2, ih _ o2 gr n2 y hy]

theorem len_pos (hw : db.WF) {id : Nat} (h : Good db id) : (db.node id).isGeneral = false → 0 < (db.node id).len := by
  induction h with
  | leaf e => rw [e]; intro _; exact Nat.one_pos
  | @inner id l r e hl hr hn gl gr il ir =>
    intro hg
    cases hnode : db.node id with
    | dummy => rw [hnode] at e; cases e
    | leaf l => exact Nat.one_pos
    | general => rw [hnode] at hg; cases hg
    | unit lits dp nl lc rc =>
      have hgood := Good.inner e hl hr hn gl gr
      obtain ⟨gl', gr', -, -, -, -, n1, n2, -, hlen, -, -⟩ := hgood.unit hw hnode
      rw [hnode] at e
      injection e with e1 e2
      subst e1 e2
      have := il n1
      have h' : (Node.unit lits dp nl lc rc).len = lits.length := rfl
      rw [h', hlen]
      omega

/-- The leaves without weights of an unweighted tree. -/
theorem leaves_unit (hw : db.WF) {id : Nat} (h : Good db id) (hg : (db.node id).isGeneral = false) :
    ones ((leafLits db id).map (·.1)) = leafLits db id := by
  unfold ones
  rw [List.map_map]
  conv => rhs; rw [← List.map_id (leafLits db id)]
  apply List.map_congr_left
  intro x hx
  have := h.leaves_ones hw hg x hx
  show (x.1, 1) = x
  rw [← this]

theorem leaves_append (hw : db.WF) {id : Nat} (h : Good db id) {lits : List LitData} {dp nl : Nat} {lc rc : NodeCon}
    (hn : db.node id = .unit lits dp nl lc rc) :
    (leafLits db id).map (·.1) = (leafLits db lc.id).map (·.1) ++ (leafLits db rc.id).map (·.1) := by
  rw [leafLits_eq hw, hn]
  simp [Node.shape, List.map_map, Function.comp_def]

end Good

end TotDb
end RustSat
