import Verif.Lemmas.DpwMove
import Mathlib.Tactic.Ring
/-
Merging two structures of the watchdog: the result of `mergeStructures`.
-/
namespace RustSat
open TotDb
namespace Dpw

variable {VM : Type} [ManageVars VM]

/-! ## Relations between databases -/

section Rel
variable {R : LitData → LitData → Prop} {a b : Db}

theorem node_rel_unit (h : DbRel R a b) {i : Nat} {lits : List LitData} {dp nl : Nat} {l r : NodeCon} (hn : a.node i = .unit lits dp nl l r) :
    ∃ lits' dp' nl', b.node i = .unit lits' dp' nl' l r := by
  have h1 := h.shape i
  rw [hn] at h1
  exact unit_of_shape h1 (by rw [(h.node i).isGeneral, hn]; rfl)

theorem leftCon_rel (h : DbRel R a b) (i : Nat) : leftCon b i = leftCon a i := by
  have hr := h.node i
  unfold leftCon
  cases hn : a.node i <;> cases hn' : b.node i <;> rw [hn, hn'] at hr <;> simp only [NodeRel] at hr
  all_goals first
    | rfl
    | (obtain ⟨-, -, h3, -⟩ := hr; exact h3.symm)

theorem Link.rel (h : DbRel R a b) {prev : Option Nat} {i : Nat} (hl : Link a prev i) : Link b prev i := by
  obtain ⟨lits, dp, nl, l, r, h1, h2, h3⟩ := hl
  obtain ⟨lits', dp', nl', h4⟩ := node_rel_unit h h1
  refine ⟨lits', dp', nl', l, r, h4, FullCon.rel h h2, ?_⟩
  cases prev with
  | none => exact h.dummy_iff.2 h3
  | some p => exact h3

theorem Chain.rel (h : DbRel R a b) : ∀ {bs : List Nat} {prev : Option Nat}, Chain a prev bs → Chain b prev bs := by
  intro bs
  induction bs with
  | nil => intro _ _; trivial
  | cons x bs ih => intro prev hc; exact ⟨hc.1.rel h, ih hc.2⟩

theorem leftSum_rel (h : DbRel R a b) (hw : a.WF) (T : Lit → Bool) : ∀ (bs : List Nat), leftSum b T bs = leftSum a T bs := by
  intro bs
  induction bs with
  | nil => rfl
  | cons x bs ih => rw [leftSum, leftSum, ih, leftCon_rel h, h.conVal hw]

theorem SepD.rel {g : Prop} (h : DbRel R a b) {bs : List Nat} (hs : SepD g bs a) : SepD g bs b :=
  ⟨fun hg i => by rw [(h.node i).isGeneral]; exact hs.plainG hg i, fun x hx => by rw [h.len]; exact hs.lt x hx,
    fun x hx => by rw [h.shape]; exact hs.inner x hx, fun i l r hsh => hs.avoid i l r (by rw [← h.shape]; exact hsh)⟩

theorem Grow.rel (h : DbRel R a b) (hw : a.WF) {s : Structure} {q : WeightQ} {n : Nat} {D : (Lit → Bool) → Nat} (hg : Grow a s q n D) : Grow b s q n D := by
  refine ⟨hg.sep.rel h, hg.avoid, hg.nodup, hg.ne, hg.chain.rel h, fun x hx => by rw [leftCon_rel h]; exact hg.left x hx, ?_⟩
  obtain ⟨u, h1, h2⟩ := hg.split
  exact ⟨u, h1, fun T => by rw [leftSum_rel h hw]; exact h2 T⟩

theorem QOK.rel (h : DbRel R a b) (hw : a.WF) {q : WeightQ} (hq : QOK a q) : QOK b q :=
  ⟨hq.sorted, hq.pos, hq.ne, fun e he c hc => ⟨FullCon.rel h (hq.full e he c hc).1, by rw [h.conVal hw]; exact (hq.full e he c hc).2⟩⟩

theorem csum_rel (h : DbRel R a b) (hw : a.WF) (T : Lit → Bool) (cons : List NodeCon) : csum b T cons = csum a T cons := by
  unfold csum
  congr 1
  exact List.map_congr_left fun c _ => h.conVal hw T c

theorem qsum_rel (h : DbRel R a b) (hw : a.WF) (f : Nat → Nat) (T : Lit → Bool) (q : WeightQ) : qsum f b T q = qsum f a T q := by
  unfold qsum
  congr 1
  exact List.map_congr_left fun e _ => by rw [csum_rel h hw]

end Rel

theorem Grow.congr {db : Db} {s : Structure} {q : WeightQ} {n n' : Nat} {D D' : (Lit → Bool) → Nat} (hg : Grow db s q n D) (hn : n' = n) (hD : ∀ T, D' T = D T) :
    Grow db s q n' D' := by
  obtain ⟨u, h1, h2⟩ := hg.split
  exact { hg with split := ⟨u, by rw [hn]; exact h1, fun T => by rw [hD]; exact h2 T⟩ }

/-- The buckets of a structure after the database was extended. -/
theorem Grow.ext {dm : Prop} {L : List Lit} {a b : Db} (hx : ExtD dm L a b) (hw : a.WF) {s : Structure} {q : WeightQ} {n : Nat} {D : (Lit → Bool) → Nat}
    (hg : Grow a s q n D) (hs : Sep s.bottomBuckets b) : Grow b s [] n D := by
  have hl : ∀ x ∈ s.bottomBuckets, leftCon b x = leftCon a x := fun x hx' => by
    unfold leftCon; rw [hx.node (hg.sep.lt x hx')]
  refine ⟨hs, by simp, hg.nodup, hg.ne, hg.chain.ext hx hw, fun x hx' => by rw [hl x hx']; exact hg.left x hx', ?_⟩
  obtain ⟨u, h1, h2⟩ := hg.split
  exact ⟨u, h1, fun T => by rw [leftSum_ext hx hw T hg.chain]; exact h2 T⟩

/-! ## Lists of buckets -/

theorem getLast_or (x : Nat) (as : List Nat) (prev : Option Nat) : (x :: as).getLast?.or prev = as.getLast?.or (some x) := by
  rw [List.getLast?_cons]
  cases as.getLast? <;> rfl

theorem chain_append {db : Db} : ∀ {as bs : List Nat} {prev : Option Nat}, Chain db prev as →
    Chain db (as.getLast?.or prev) bs → Chain db prev (as ++ bs) := by
  intro as
  induction as with
  | nil => intro bs prev _ h; simpa using h
  | cons x as ih =>
    intro bs prev h1 h2
    exact ⟨h1.1, ih h1.2 (by rw [← getLast_or x as prev]; exact h2)⟩

theorem chain_of_get {db : Db} : ∀ {bs : List Nat} {prev : Option Nat},
    (∀ (j : Nat) b, bs[j]? = some b → (j = 0 → Link db prev b) ∧ ∀ j' p, j = j' + 1 → bs[j']? = some p → Link db (some p) b) → Chain db prev bs := by
  intro bs
  induction bs with
  | nil => intro _ _; trivial
  | cons x bs ih =>
    intro prev h
    refine ⟨(h 0 x rfl).1 rfl, ih fun j b hj => ?_⟩
    have h1 := h (j + 1) b (by simpa using hj)
    refine ⟨fun h0 => ?_, fun j' p hj' hp => ?_⟩
    · subst h0; exact h1.2 0 x rfl rfl
    · exact h1.2 (j' + 1) p (by omega) (by simpa using hp)

theorem leftSum_append (db : Db) (T : Lit → Bool) : ∀ (as bs : List Nat), leftSum db T (as ++ bs) = leftSum db T as + 2 ^ as.length * leftSum db T bs := by
  intro as
  induction as with
  | nil => intro bs; simp [leftSum]
  | cons x as ih =>
    intro bs
    rw [List.cons_append, leftSum, leftSum, ih, List.length_cons, Nat.pow_succ]
    ring

theorem tareVal_append (T : Lit → Bool) : ∀ (as bs : List Lit), tareVal T (as ++ bs) = tareVal T as + 2 ^ as.length * tareVal T bs := by
  intro as
  induction as with
  | nil => intro bs; simp [tareVal]
  | cons x as ih =>
    intro bs
    rw [List.cons_append, tareVal, tareVal, ih, List.length_cons, Nat.pow_succ]
    ring

theorem leftSum_congr {a b : Db} (T : Lit → Bool) : ∀ {as bs : List Nat}, as.length = bs.length →
    (∀ (j x y : Nat), as[j]? = some x → bs[j]? = some y → conVal a T (leftCon a x) = conVal b T (leftCon b y)) → leftSum a T as = leftSum b T bs := by
  intro as
  induction as with
  | nil => intro bs h _; cases bs with
    | nil => rfl
    | cons => simp at h
  | cons x as ih =>
    intro bs h hj
    cases bs with
    | nil => simp at h
    | cons y bs =>
      rw [leftSum, leftSum, hj 0 x y rfl rfl, ih (by simpa using h) fun j x y h1 h2 => hj (j + 1) x y (by simpa using h1) (by simpa using h2)]

/-! ## The buckets for tares without a bucket -/

theorem extraBuckets_spec : ∀ (ts : List Lit) (next : Nat) (db : Db), db.WF → next < db.nodes.length → (db.node next).isGeneral = false →
    ∃ ids next' db', extraBuckets ts next db = (ids, next', db') ∧ db'.WF ∧ Ext ts db db' ∧ ids.length = ts.length ∧ some next' = ids.getLast?.or (some next) ∧
      next' < db'.nodes.length ∧ Chain db' (some next) ids ∧ (∀ T, leftSum db' T ids = tareVal T ts) ∧ (∀ id ∈ ids, db.nodes.length ≤ id) ∧ ids.Pairwise (· < ·) ∧
      (∀ id ∈ ids, ∃ t, db'.node (leftCon db' id).id = .leaf t) ∧
      (∀ B, Sep B db → next ∉ B → Sep B db' ∧ next' ∉ B) ∧ ∀ C, Sep C db → Sep (C ++ ids) db' := by
  intro ts
  induction ts with
  | nil =>
    intro next db hw hn _
    exact ⟨[], next, db, rfl, hw, Ext.refl _ _, rfl, by simp, hn, trivial, fun _ => rfl, by simp, List.Pairwise.nil, by simp, fun B h1 h2 => ⟨h1, h2⟩,
      fun C h => by simpa using h⟩
  | cons t ts ih =>
    intro next db hw hn hg
    have hleaf := insert_leaf hw t
    have hsepleaf : ∀ B, Sep B db → Sep B (db.insert (.leaf t)).2 := fun B hB => hB.insert rfl (fun l r h => by cases h)
    unfold extraBuckets
    generalize hr1 : db.insert (.leaf t) = r1 at hleaf hsepleaf ⊢
    obtain ⟨leaf, db1⟩ := r1
    simp only at hleaf hsepleaf ⊢
    obtain ⟨w1, x1, n1, lt1⟩ := hleaf
    have len1 := x1.len
    have hnext1 : db1.node next = db.node next := x1.node hn
    have hu := half_unit (db := db1) (id := next) (by omega) (by rw [hnext1]; exact hg)
    generalize hnode : Node.unit (List.replicate (1 + db1.conLen ⟨next, 0, 2, 1, none⟩) .none) 2 1 (NodeCon.full leaf) ⟨next, 0, 2, 1, none⟩ = node
    have hfull : FullCon db1 (NodeCon.full leaf) := ⟨⟨lt1, ⟨by simp [NodeCon.full], by simp [NodeCon.full], by simp [NodeCon.full]⟩, rfl, by simp [NodeCon.full], by
      show (db1.node leaf).isGeneral = false; rw [n1]; rfl⟩, rfl⟩
    have hins : pushNode db1 node = db1.insert node := by rw [← hnode]; rfl
    have hshape : node.shape = .inner (NodeCon.full leaf) ⟨next, 0, 2, 1, none⟩ := by rw [← hnode]; rfl
    have hinner := insert_inner w1 (n := node) (by rw [hshape]; intro h; cases h) (by intro l; rw [← hnode]; intro h; cases h)
      (by rw [← hnode]; intro d hd; exact List.eq_of_mem_replicate hd)
      (by
        rw [← hnode]
        refine ⟨lt1, ?_, hfull.1, hu.1, ?_⟩
        · show next < _; omega
        · rw [List.length_replicate, full_conLen, n1]; rfl)
    rw [hins]
    have hidn := insert_inner_id db1 node hshape
    have hsepn : ∀ B, Sep B db1 → leaf ∉ B → next ∉ B → Sep B (db1.insert node).2 := fun B hB h1 h2 => hB.insert (by rw [← hnode]; rfl) (fun l r h => by
      rw [hshape] at h; cases h; exact ⟨h1, h2⟩)
    generalize hr2 : db1.insert node = r2 at hinner hidn hsepn ⊢
    obtain ⟨id, db2⟩ := r2
    simp only at hinner hidn hsepn ⊢
    obtain ⟨w2, x2, n2, id2, lt2⟩ := hinner
    obtain ⟨ids, next', db3, e3, w3, x3, len3, nx3, nlt3, ch3, ls3, fr3, pw3, lf3, sB3, sC3⟩ := ih id db2 w2 lt2 (by rw [n2, ← hnode]; rfl)
    rw [e3]
    have n3 : db3.node id = node := by rw [x3.node lt2, n2]
    have hlc : leftCon db3 id = NodeCon.full leaf := by unfold leftCon; rw [n3, ← hnode]
    have x13 : Ext (t :: ts) db1 db3 := (x2.mono (by simp)).trans (x3.mono (fun l hl => List.mem_cons_of_mem _ hl))
    have hn3 : db3.node leaf = .leaf t := by rw [x13.node lt1, n1]
    have len2 := x2.len
    refine ⟨_, _, _, rfl, w3, (x1.mono (by simp)).trans x13, by simp [len3], ?_, nlt3, ⟨⟨_, _, _, _, _, n3.trans hnode.symm, full_ext x13 hfull, rfl⟩, ch3⟩, fun T => ?_,
      fun i hi => ?_, List.pairwise_cons.2 ⟨fun i hi => ?_, pw3⟩, fun i hi => ?_, fun B hB hnB => ?_, fun C hC => ?_⟩
    · rw [nx3, getLast_or]
    · rw [leftSum, hlc, ls3, conVal_full, value_leaf w3 hn3]
      rfl
    · rcases List.mem_cons.1 hi with rfl | hi
      · omega
      · have := fr3 i hi; omega
    · have := fr3 i hi; omega
    · rcases List.mem_cons.1 hi with rfl | hi
      · exact ⟨t, by rw [hlc]; exact hn3⟩
      · exact lf3 i hi
    · have hB1 := hsepleaf B hB
      have hlB : leaf ∉ B := fun h => by
        obtain ⟨l, r, hs⟩ := hB1.inner leaf h
        rw [n1] at hs; cases hs
      have hB2 := hsepn B hB1 hlB hnB
      exact sB3 B hB2 (fun h => by have := hB1.lt id h; omega)
    · have := (hsepleaf C hC).bucket w2 hidn.2 hshape (by rw [← hnode]; rfl)
      rw [← id2] at this
      have := sC3 _ this
      rw [List.append_assoc] at this
      exact this

/-! ## Values after moving buckets -/

theorem Moved.value {bs : List Nat} {next : Nat} {db db' : Db} (hw : db.WF) (hm : Movable bs next db) (h : Moved bs next db db') (T : Lit → Bool) :
    ∀ i, i < db.nodes.length → i ∉ bs → TotDb.value db' T i = TotDb.value db T i := by
  intro i
  induction i using Nat.strongRecOn with
  | _ i ih =>
    intro hi hb
    rw [value_eq (h.wf hw hm), value_eq hw, h.other i hi hb]
    cases hs : (db.node i).shape with
    | leaf => rfl
    | dummy => rfl
    | inner l r =>
      obtain ⟨c1, c2⟩ := hw.children hs
      obtain ⟨d1, d2⟩ := hm.sep.avoid i l r hs hb
      simp only
      unfold TotDb.conVal
      rw [ih _ c1 (by omega) d1, ih _ c2 (by omega) d2]

theorem todo_of_get {db : Db} {C : ClauseSet} : ∀ {ids : List (Nat × Nat)} {orm : Nat}, ids.Pairwise (fun x y => x.1 < y.1) →
    (∀ (j : Nat) x, ids[j]? = some x → ∀ m, (j = 0 → m = orm) → (∀ j' y, j = j' + 1 → ids[j']? = some y → m = y.2 / 2) →
      (∃ lits l p, BucketAt db x.1 lits l p ∧ (∀ (k : Nat) lit s, lits[k]? = some (.lit lit (some s)) → k < x.2) ∧
        ((∃ (k : Nat) (lit : Lit) (s : Semantics), lits[k]? = some (.lit lit (some s))) → x.2 ≤ (db.node l.id).len + m)) ∧ LSound db C m x.1) →
    Todo db C orm ids := by
  intro ids
  induction ids with
  | nil => intro _ _ _; trivial
  | cons x ids ih =>
    intro orm hp h
    obtain ⟨p1, p2⟩ := List.pairwise_cons.1 hp
    obtain ⟨h1, h2⟩ := h 0 x rfl orm (fun _ => rfl) (fun j' y hj => by omega)
    refine ⟨h1, h2, p1, ih p2 fun j y hj m hm0 hm1 => h (j + 1) y (by simpa using hj) m (fun h => by omega) fun j' z hj' hz => ?_⟩
    have : j' = j := by omega
    subst this
    cases j' with
    | zero => simp only [List.getElem?_cons_zero, Option.some.injEq] at hz; subst hz; exact hm0 rfl
    | succ j => exact hm1 j z rfl (by simpa using hz)

theorem todo_extra {db : Db} {C : ClauseSet} {ids : List (Nat × Nat)} (hT : Todo db C 0 ids) : ∀ (ex : List Nat), ex.Pairwise (· < ·) →
    (∀ x ∈ ex, ∀ y ∈ ids, x < y.1) →
    (∀ x ∈ ex, ∃ lits l p, BucketAt db x lits l p ∧ (∀ (k : Nat) lit s, lits[k]? ≠ some (.lit lit s)) ∧ LSound db C 0 x) → Todo db C 0 (ex.map (·, 1) ++ ids) := by
  intro ex
  induction ex with
  | nil => intro _ _ _; simpa using hT
  | cons x ex ih =>
    intro hp hlt h
    obtain ⟨p1, p2⟩ := List.pairwise_cons.1 hp
    obtain ⟨lits, l, p, h1, h2, h3⟩ := h x (by simp)
    refine ⟨⟨lits, l, p, h1, fun k lit s hk => absurd hk (h2 k lit _), fun ⟨k, lit, s, hk⟩ => absurd hk (h2 k lit _)⟩, h3, fun y hy => ?_,
      (show Todo db C (1 / 2) (ex.map (·, 1) ++ ids) from ih p2 (fun x hx => hlt x (by simp [hx])) fun x hx => h x (by simp [hx]))⟩
    rcases List.mem_append.1 hy with hy | hy
    · obtain ⟨z, hz, rfl⟩ := List.mem_map.1 hy
      exact p1 z hz
    · exact hlt x (by simp) y hy

theorem link_bucket {db : Db} (hw : db.WF) {p b : Nat} (h : Link db (some p) b) (hp : (db.node p).isGeneral = false) : ∃ lits, BucketAt db b lits (leftCon db b) p ∧
    ∃ dp nl, db.node b = .unit lits dp nl (leftCon db b) (half p) := by
  obtain ⟨lits, dp, nl, l, r, h1, h2, h3⟩ := h
  have h3 : r = half p := h3
  subst h3
  have hl : leftCon db b = l := by unfold leftCon; rw [h1]
  rw [hl]
  obtain ⟨c1, c2⟩ := hw.children (show (db.node b).shape = .inner l (half p) by rw [h1]; rfl)
  exact ⟨lits, ⟨⟨dp, nl, h1⟩, h2, c1, c2, hp⟩, dp, nl, h1⟩

/-- Moving buckets keeps the values of the other nodes. -/
theorem Moved.conVal {bs : List Nat} {next : Nat} {db db' : Db} (hw : db.WF) (hm : Movable bs next db) (h : Moved bs next db db') (T : Lit → Bool) {c : NodeCon}
    (hc : c.id < db.nodes.length) (hb : c.id ∉ bs) : TotDb.conVal db' T c = TotDb.conVal db T c := by
  unfold TotDb.conVal; rw [h.value hw hm T _ hc hb]

/-- The positions of the moved buckets. -/
def copies (db : Db) (bs : List Nat) : List Nat := List.range' db.nodes.length bs.length

theorem copies_get (db : Db) (bs : List Nat) (j i : Nat) : (copies db bs)[j]? = some i ↔ j < bs.length ∧ i = db.nodes.length + j := by
  unfold copies
  rw [List.getElem?_eq_some_iff]
  simp only [List.length_range', List.getElem_range', Nat.one_mul]
  constructor
  · rintro ⟨h, rfl⟩; exact ⟨h, rfl⟩
  · rintro ⟨h, rfl⟩; exact ⟨h, rfl⟩

theorem mem_copies (db : Db) (bs : List Nat) (i : Nat) : i ∈ copies db bs ↔ ∃ j, j < bs.length ∧ i = db.nodes.length + j := by
  unfold copies
  rw [List.mem_range'_1]
  constructor
  · intro h; exact ⟨i - db.nodes.length, by omega, by omega⟩
  · rintro ⟨j, h1, rfl⟩; omega

namespace Moved
variable {bs : List Nat} {next : Nat} {db db' : Db}

theorem linkAt (hm : Movable bs next db) (h : Moved bs next db db') {j b : Nat} (hj : bs[j]? = some b) :
    Link db' (some (below next db.nodes.length j)) (db.nodes.length + j) ∧ leftCon db' (db.nodes.length + j) = leftCon db b ∧ (leftCon db b).id ∉ bs ∧
      (leftCon db b).id < db.nodes.length := by
  obtain ⟨lits, dp, nl, l, r, h1, h2, h3, h4, h5, h6⟩ := h.link hm hj
  have e1 : leftCon db b = l := by unfold leftCon; rw [h1]
  rw [e1]
  refine ⟨⟨_, _, _, _, _, h3, ⟨h.unitCon hm h4.1, h4.2⟩, rfl⟩, ?_, h5, h4.1.id⟩
  unfold leftCon; rw [h3]

theorem chain (hm : Movable bs next db) (h : Moved bs next db db') : Chain db' (some next) (copies db bs) := by
  apply chain_of_get
  intro j i hi
  obtain ⟨hj, rfl⟩ := (copies_get db bs j i).1 hi
  have hl := (h.linkAt hm (List.getElem?_eq_getElem hj)).1
  refine ⟨fun h0 => ?_, fun j' p hj' hp => ?_⟩
  · subst h0; exact hl
  · subst hj'
    obtain ⟨-, rfl⟩ := (copies_get db bs j' p).1 hp
    exact hl

theorem leftSum (hw : db.WF) (hm : Movable bs next db) (h : Moved bs next db db') (T : Lit → Bool) : Dpw.leftSum db' T (copies db bs) = Dpw.leftSum db T bs := by
  refine leftSum_congr T (by simp [copies]) fun j x y hx hy => ?_
  obtain ⟨hj, rfl⟩ := (copies_get db bs j x).1 hx
  obtain ⟨-, h2, h3, h4⟩ := h.linkAt hm hy
  rw [h2]
  exact h.conVal hw hm T h4 h3

/-- Nodes that are not moved keep their left children. -/
theorem leftCon_other (h : Moved bs next db db') {i : Nat} (hi : i < db.nodes.length) (hb : i ∉ bs) : leftCon db' i = leftCon db i := by
  unfold leftCon; rw [h.other i hi hb]

theorem fullCon (hm : Movable bs next db) (h : Moved bs next db db') {c : NodeCon} (hc : FullCon db c) : FullCon db' c := ⟨h.unitCon hm hc.1, hc.2⟩

theorem chain_other (hw : db.WF) (hm : Movable bs next db) (h : Moved bs next db db') : ∀ {cs : List Nat} {prev : Option Nat}, Chain db prev cs → (∀ c ∈ cs, c ∉ bs) →
    Chain db' prev cs := by
  intro cs
  induction cs with
  | nil => intro _ _ _; trivial
  | cons x cs ih =>
    rintro prev ⟨h1, h2⟩ hc
    refine ⟨?_, ih h2 fun c h => hc c (by simp [h])⟩
    have hx := link_lt h1
    obtain ⟨lits, dp, nl, l, r, g1, g2, g3⟩ := h1
    refine ⟨lits, dp, nl, l, r, by rw [h.other x hx (hc x (by simp))]; exact g1, h.fullCon hm g2, ?_⟩
    cases prev with
    | some p => exact g3
    | none =>
      have g3 : db.node r.id = .dummy := g3
      show db'.node r.id = .dummy
      have hrb : r.id ∉ bs := fun hb => by
        obtain ⟨l', r', hs⟩ := hm.sep.inner _ hb
        rw [g3] at hs; cases hs
      have hrl : r.id < db.nodes.length := by
        have := (hw.children (show (db.node x).shape = .inner l r by rw [g1]; rfl)).2
        omega
      rw [h.other _ hrl hrb]
      exact g3

theorem leftSum_other (hw : db.WF) (hm : Movable bs next db) (h : Moved bs next db db') (T : Lit → Bool) {cs : List Nat}
    (hc : ∀ c ∈ cs, c < db.nodes.length ∧ c ∉ bs ∧ (leftCon db c).id < db.nodes.length ∧ (leftCon db c).id ∉ bs) : Dpw.leftSum db' T cs = Dpw.leftSum db T cs := by
  refine leftSum_congr T rfl fun j x y hx hy => ?_
  rw [hx] at hy
  cases hy
  obtain ⟨h1, h2, h3, h4⟩ := hc x (List.mem_of_getElem? hx)
  rw [h.leftCon_other h1 h2]
  exact h.conVal hw hm T h3 h4

end Moved

theorem headD_reverse_append {as bs : List Nat} {x : Nat} (h : as.getLast? = some x) : (as.reverse ++ bs).headD 0 = x := by
  rw [List.headD_eq_head?_getD, List.head?_append, List.head?_reverse, h]
  rfl

/-- Merging two structures. -/
theorem mergeStructures_spec [LawfulVM VM] {bot top : Structure} {db : Db} {vm : VM} {cls : ClauseSet} {ins : List Lit} {own : List Nat}
    {D : (Lit → Bool) → Nat} (hl : LCore db cls) (hc : Core db (ManageVars.nUsed vm) cls ins own) (hbt : Grow db bot [] (bot.tares.length + 1) D)
    (htp : top.precDiv ≠ 0) (hr : top.root < db.nodes.length) (hrB : top.root ∉ bot.bottomBuckets) (hins : ∀ t ∈ bot.tares, t ∈ ins) {β : Nat}
    (hβ : digits (bot.precDiv / (top.precDiv * 2 ^ top.tares.length)) 2 - 1 = β) :
    ∃ s st, mergeStructures bot top db vm cls = some (s, st) ∧
      s.tares = top.tares ++ (List.range β).map (fun i => Lit.pos (ManageVars.nUsed vm + i)) ++ bot.tares ∧ s.precDiv = top.precDiv ∧
      LCore st.db st.cls ∧ PreCore st.db (ManageVars.nUsed st.vm) st.cls (ins ++ (List.range β).map (fun i => Lit.pos (ManageVars.nUsed vm + i)))
        (own ++ List.range' (ManageVars.nUsed vm + β) (ManageVars.nUsed st.vm - (ManageVars.nUsed vm + β))) ∧
      ManageVars.nUsed vm + β ≤ ManageVars.nUsed st.vm ∧ ¬ NoDummy st.db ∧ s.root < st.db.nodes.length ∧ (∃ new, st.cls = cls ++ new) ∧
      (∀ T, value st.db T s.root = (value db T top.root / 2 + (tareVal T ((List.range β).map (fun i => Lit.pos (ManageVars.nUsed vm + i))) +
        2 ^ β * (D T + tareVal T bot.tares))) / 2 ^ (β + bot.tares.length)) ∧
      (∀ c, FullCon db c → c.id ∉ bot.bottomBuckets → FullCon st.db c ∧ ∀ T, conVal st.db T c = conVal db T c) ∧
      ∀ q R len0, Grow db top q top.tares.length R → (∀ b ∈ bot.bottomBuckets, b < len0) → (∀ b ∈ top.bottomBuckets, len0 ≤ b) →
        (∀ e ∈ q, ∀ c ∈ e.2, c.id < db.nodes.length) →
        Grow st.db s q (s.tares.length + 1) (fun T => R T + 2 ^ (top.tares.length + β) * D T) := by
  have hw := hc.wf
  obtain ⟨u, hu, hD⟩ := hbt.split
  have hL : 1 ≤ bot.bottomBuckets.length := List.length_pos_iff.2 hbt.ne
  unfold mergeStructures
  rw [if_neg (by
    have := Nat.two_pow_pos top.tares.length
    exact Nat.mul_ne_zero htp (by omega))]
  simp only
  rw [hβ]
  have hnv := Am1.newVars_spec (VM := VM) β vm
  generalize Am1.newVars β vm = r at hnv ⊢
  obtain ⟨tv, vm1⟩ := r
  simp only at hnv ⊢
  obtain ⟨a1, a2⟩ := hnv
  have hvars : tv.map Lit.pos = (List.range β).map (fun i => Lit.pos (ManageVars.nUsed vm + i)) := by rw [a1]; simp [Function.comp_def]
  rw [hvars]
  generalize hV : (List.range β).map (fun i => Lit.pos (ManageVars.nUsed vm + i)) = V
  have hVl : V.length = β := by rw [← hV]; simp
  have hVmem : ∀ l ∈ V, ManageVars.nUsed vm ≤ l.var ∧ l.var < ManageVars.nUsed vm1 := fun l hl => by
    rw [← hV] at hl
    obtain ⟨i, hi, rfl⟩ := List.mem_map.1 hl
    rw [List.mem_range] at hi
    rw [Lit.var_pos, a2]
    omega
  have hextra : ((top.tares ++ V ++ bot.tares).take ((top.tares ++ V ++ bot.tares).length - (bot.bottomBuckets.length - 1))).drop top.tares.length =
      V ++ bot.tares.take u := by
    rw [show (top.tares ++ V ++ bot.tares).length - (bot.bottomBuckets.length - 1) = top.tares.length + (V.length + u) by
      simp only [List.length_append]; omega]
    rw [List.append_assoc, List.take_length_add_append, List.drop_left, List.take_length_add_append]
  rw [hextra]
  have hcore1 : Core db (ManageVars.nUsed vm1) cls (ins ++ V) own := (hc.more (by omega)).add V fun l hl => by
    obtain ⟨h1, h2⟩ := hVmem l hl
    exact ⟨h2, fun h => by have := hc.ownLt _ h; omega⟩
  obtain ⟨ex, next, db1, e1, w1, x1, exl, nx, nlt, ch1, ls1, fr1, pw1, lf1, sB1, sC1⟩ := extraBuckets_spec (V ++ bot.tares.take u) top.root db hw hr (hl.plain _)
  rw [e1]
  simp only
  obtain ⟨sb1, nb1⟩ := sB1 _ hbt.sep hrB
  have hcore2 : Core db1 (ManageVars.nUsed vm1) cls (ins ++ V) own := hcore1.ext x1 w1 fun l hl => by
    rw [List.mem_append] at hl ⊢
    rcases hl with hl | hl
    · exact Or.inr hl
    · exact Or.inl (hins l (List.mem_of_mem_take hl))
  have hl1 : LCore db1 cls := hl.ext hw x1 sb1.plain
  have hg1 := hbt.ext x1 hw sb1
  have hsepR : Sep bot.bottomBuckets.reverse db1 := ⟨fun _ => sb1.plain, fun b hb => sb1.lt b (List.mem_reverse.1 hb), fun b hb => sb1.inner b (List.mem_reverse.1 hb),
    fun i l r h hi => by rw [List.mem_reverse] at hi ⊢; rw [List.mem_reverse]; exact sb1.avoid i l r h hi⟩
  have hm : Movable bot.bottomBuckets.reverse next db1 := ⟨hsepR, List.pairwise_reverse.2 (hg1.nodup.imp Ne.symm), hg1.chain,
    fun b hb => by rw [List.mem_reverse] at hb ⊢; exact hg1.left b hb, nlt, by rw [List.mem_reverse]; exact nb1⟩
  generalize hbs : bot.bottomBuckets.reverse = bs at hm ⊢
  have hbsm : ∀ b, b ∈ bs ↔ b ∈ bot.bottomBuckets := fun b => by rw [← hbs, List.mem_reverse]
  have hbsl : bs.length = bot.bottomBuckets.length := by rw [← hbs, List.length_reverse]
  obtain ⟨ids, db2, e2, mv, il, ig⟩ := moveBuckets_spec bs next db1 hm.nodup nlt (fun b hb => by
    obtain ⟨p, hp⟩ := chain_mem hm.chain b hb
    have h1 := leftCon_child w1 hp
    obtain ⟨lits, dp, nl, l, r, g1, -⟩ := hp
    have e : leftCon db1 b = l := by unfold leftCon; rw [g1]
    rw [e] at h1
    exact ⟨lits, dp, nl, l, r, g1, h1⟩)
  rw [e2]
  simp only
  have w2 := mv.wf w1 hm
  have hids : ids.map (·.1) = copies db1 bs := by
    apply List.ext_getElem?
    intro j
    by_cases hj : j < bs.length
    · rw [List.getElem?_map, ig j _ (List.getElem?_eq_getElem hj), (copies_get db1 bs j _).2 ⟨hj, rfl⟩]
      rfl
    · rw [List.getElem?_eq_none (by simp; omega), List.getElem?_eq_none (by simp [copies]; omega)]
  have hpre2 := mv.pre hcore2.pre hm
  have hextralt : ∀ x ∈ ex, x < db1.nodes.length := fun x hx => by
    obtain ⟨p, hp⟩ := chain_mem ch1 x hx
    exact link_lt hp
  have hexb : ∀ x ∈ ex, x ∉ bs := fun x hx hb => by
    have := hbt.sep.lt x ((hbsm x).1 hb)
    have := fr1 x hx
    omega
  have hrb : top.root ∉ bs := fun h => hrB ((hbsm _).1 h)
  have ch2e : Chain db2 (some top.root) ex := mv.chain_other w1 hm ch1 hexb
  have ch2c := mv.chain hm
  have ch2 : Chain db2 (some top.root) (ex ++ copies db1 bs) := chain_append ch2e (by rw [← nx]; exact ch2c)
  have hsound2 : ∀ m i, i ∉ copies db1 bs → LSound db2 cls m i := fun m i hi => mv.sound w1 hm hl1.sound m i fun j hj h => hi ((mem_copies _ _ _).2 ⟨j, hj, h⟩)
  have htodo : Todo db2 cls 0 (ex.map (·, 1) ++ ids) := by
    apply todo_extra
    · apply todo_of_get
      · have : (ids.map (·.1)).Pairwise (· < ·) := by rw [hids]; unfold copies; exact List.pairwise_lt_range'
        exact List.pairwise_map.1 this
      · intro j x hx m hm0 hm1
        have hj : j < bs.length := by rw [← il]; exact (List.getElem?_eq_some_iff.1 hx).1
        have hb := List.getElem?_eq_getElem hj
        rw [ig j _ hb] at hx
        cases hx
        obtain ⟨lits, dp, nl, l, r, g1, g2, g3, g4, g5, g6⟩ := mv.link hm hb
        have hmm : (j = 0 → m = 0) ∧ ∀ j' p, j = j' + 1 → bs[j']? = some p → m = (db1.node p).len / 2 :=
          ⟨hm0, fun j' p hj' hp => hm1 j' _ hj' (ig j' p hp)⟩
        refine ⟨⟨_, l, below next db1.nodes.length j, ⟨⟨dp, nl, g3⟩, mv.fullCon hm g4, ?_, Moved.below_lt hm, mv.plain hm _⟩, fun k lit s hk => ?_, fun _ => ?_⟩,
          mv.soundAt hm hl1.sound hb hmm.1 hmm.2⟩
        · have := g4.1.id; simp only; omega
        · rw [g1]
          simp only [Node.len]
          by_contra hkl
          rw [List.getElem?_append_right (by omega)] at hk
          cases List.eq_of_mem_replicate (List.mem_of_getElem? hk)
        · have hok := w1.nodes _ _ (Db.getElem?_node (Db.node_lt (db := db1) (id := bs[j]) (by rw [g1]; intro h; cases h)))
          rw [g1] at hok
          obtain ⟨o1, o2, o3, o4, o5⟩ := hok
          rw [g1]
          show lits.length ≤ _
          rw [o5, FullCon.conLen g4, mv.nodeLen g4.1.id]
          apply Nat.add_le_add_left
          rcases g6 with ⟨h0, h6⟩ | ⟨j', p, h0, hp, rfl⟩
          · rw [conLen_eq, h6]
            have : r.steps (Node.dummy).len = 0 := r.steps_zero
            rw [this]; omega
          · rw [half_conLen, hmm.2 j' p h0 hp]
    · exact pw1
    · intro x hx y hy
      have h1 := hextralt x hx
      have h2 : y.1 ∈ copies db1 bs := by rw [← hids]; exact List.mem_map_of_mem hy
      obtain ⟨j, -, h3⟩ := (mem_copies _ _ _).1 h2
      omega
    · intro x hx
      obtain ⟨p, hp⟩ := chain_mem ch1 x hx
      obtain ⟨j, hj⟩ := List.getElem?_of_mem hx
      have hlk : ∃ p, Link db2 (some p) x := by
        obtain ⟨c1, c2⟩ := chain_get ch2e j x hj
        cases j with
        | zero => exact ⟨_, c1 rfl⟩
        | succ j => obtain ⟨p, -, h⟩ := c2 j rfl; exact ⟨p, h⟩
      obtain ⟨p', hp'⟩ := hlk
      obtain ⟨lits, h1, dp, nl, h2⟩ := link_bucket w2 hp' (mv.plain hm _)
      refine ⟨lits, _, p', h1, fun k lit s hk => ?_, hsound2 0 x fun h => ?_⟩
      · have hbl := node_ext_ge x1 (fr1 x hx)
        rw [← mv.other x (hextralt x hx) (hexb x hx), h2] at hbl
        cases hbl _ (List.mem_of_getElem? hk)
      · obtain ⟨j, -, h3⟩ := (mem_copies _ _ _).1 h
        have := hextralt x hx
        omega
  obtain ⟨st, e3, s3, l3⟩ := extendBuckets_spec (ex.map (·, 1) ++ ids) 0 (⟨db2, vm1, cls⟩ : St VM) w2 (mv.plain hm) (fun W b hW => by
    obtain ⟨W', hW'⟩ := mv.strict hm hW
    exact hl1.sat W' b hW') (fun m i hi => hsound2 m i fun h => hi (by
      rw [List.map_append, hids]; exact List.mem_append_right _ h)) htodo
  rw [e3]
  have hrel : DbRef db2 st.db := s3.ref
  have w3 := hrel.wf w2
  have hne : ex ++ copies db1 bs ≠ [] := by
    intro h
    have := congrArg List.length h
    simp only [List.length_append, copies, List.length_range', List.length_nil] at this
    omega
  have hroot : (ex ++ copies db1 bs).getLast? = some (Structure.root ⟨(ids.map (·.1)).reverse ++ ex.reverse ++ top.bottomBuckets, top.tares ++ V ++ bot.tares, top.precDiv⟩) := by
    unfold Structure.root
    simp only
    rw [hids, ← List.reverse_append]
    cases hgl : (ex ++ copies db1 bs).getLast? with
    | none => exact absurd (List.getLast?_eq_none_iff.1 hgl) hne
    | some x => rw [headD_reverse_append hgl]
  refine ⟨_, st, rfl, rfl, rfl, l3, ?_, ?_, fun hn => ?_, ?_, ?_, fun T => ?_, fun c hcf hcb => ?_, fun q R len0 hgt hlen0 hlen1 hq => ?_⟩
  · have := hpre2.step (VM := VM) (st := ⟨db2, vm1, cls⟩) s3
    simp only [a2] at this
    exact this
  · have := s3.used
    simp only [a2] at this
    exact this
  · have hb0 : 0 < bs.length := by omega
    obtain ⟨lits, dp, nl, l, r, g1, g2, g3, g4, g5, g6⟩ := mv.link hm (List.getElem?_eq_getElem hb0)
    rcases g6 with ⟨-, g6⟩ | ⟨j', p, h0, -⟩
    · have hrl : r.id < db1.nodes.length := by
        have := (w1.children (show (db1.node bs[0]).shape = .inner l r by rw [g1]; rfl)).2
        have := hm.sep.lt _ (List.getElem_mem hb0)
        omega
      have hrb : r.id ∉ bs := fun hb => by
        obtain ⟨l', r', hs⟩ := hm.sep.inner _ hb
        rw [g6] at hs; cases hs
      refine (hn bs[0] l r (by rw [hrel.shape, g2]; rfl)).2 (hrel.dummy_iff.2 ?_)
      rw [mv.other _ hrl hrb]; exact g6
    · omega
  · have hmem := List.mem_of_getLast? hroot
    obtain ⟨p, hp⟩ := chain_mem ch2 _ hmem
    rw [hrel.len]
    exact link_lt hp
  · obtain ⟨new, e, -⟩ := s3.cls
    exact ⟨new, e⟩
  · rw [hrel.value w2, chain_val w2 T ch2 hroot]
    have h1 : carry db2 T ((some top.root).map (·, 0)) = value db T top.root / 2 := by
      show value db2 T top.root / 2 = _
      have := x1.len
      rw [mv.value w1 hm T _ (by omega) hrb, x1.value hw T hr]
    have h2 : leftSum db2 T ex = tareVal T (V ++ bot.tares.take u) := by
      rw [mv.leftSum_other w1 hm T fun c hcx => ?_, ls1]
      obtain ⟨p, hp⟩ := chain_mem ch1 c hcx
      refine ⟨hextralt c hcx, hexb c hcx, (leftCon_link hp).1.id, fun hb => ?_⟩
      obtain ⟨t, ht⟩ := lf1 c hcx
      obtain ⟨l', r', hs⟩ := hm.sep.inner _ hb
      rw [ht] at hs; cases hs
    have h3 : leftSum db2 T (copies db1 bs) = leftSum db T bot.bottomBuckets.reverse := by
      rw [mv.leftSum w1 hm T, ← hbs, leftSum_ext x1 hw T hbt.chain]
    rw [h1, leftSum_append, h2, h3, tareVal_append, hVl]
    have hul : (bot.tares.take u).length = u := by rw [List.length_take]; omega
    have hexl : ex.length = β + u := by rw [exl, List.length_append, hVl, hul]
    rw [hexl]
    have hlen : (ex ++ copies db1 bs).length - 1 = β + bot.tares.length := by
      rw [List.length_append, hexl]
      simp only [copies, List.length_range']
      omega
    rw [hlen, hD T, Nat.pow_add]
    congr 2
    ring
  · have hx := x1.len
    have hcid := hcf.1.id
    have h1 : FullCon db1 c := full_ext x1 hcf
    have hcb' : c.id ∉ bs := fun h => hcb ((hbsm _).1 h)
    refine ⟨FullCon.rel hrel (mv.fullCon hm h1), fun T => ?_⟩
    rw [hrel.conVal w2, mv.conVal w1 hm T h1.1.id hcb', x1.conVal hw T hcid]
  · apply Grow.rel hrel w2
    have hx1 := x1.len
    have htop1 : ∀ b ∈ top.bottomBuckets, b < db.nodes.length := hgt.sep.lt
    have htopb : ∀ b ∈ top.bottomBuckets, b ∉ bs := fun b hb h => by
      have := hlen0 b ((hbsm b).1 h); have := hlen1 b hb; omega
    have hcop : ∀ i ∈ copies db1 bs, db1.nodes.length ≤ i := fun i hi => by
      obtain ⟨j, -, h⟩ := (mem_copies _ _ _).1 hi; omega
    have hsep1 := sC1 _ hgt.sep
    have hlen00 : len0 ≤ db.nodes.length := by
      cases hh : top.bottomBuckets with
      | nil => exact absurd hh hgt.ne
      | cons b bb => have := hlen1 b (by simp [hh]); have := htop1 b (by simp [hh]); omega
    have hmemB : ∀ i, i ∈ (ids.map (·.1)).reverse ++ ex.reverse ++ top.bottomBuckets ↔ i ∈ copies db1 bs ∨ i ∈ ex ∨ i ∈ top.bottomBuckets := fun i => by
      rw [hids]; simp only [List.mem_append, List.mem_reverse]; exact or_assoc
    have hnewge : ∀ i, i ∈ copies db1 bs ∨ i ∈ ex ∨ i ∈ top.bottomBuckets → len0 ≤ i := by
      rintro i (h | h | h)
      · have := hcop i h; omega
      · have := fr1 i h; omega
      · exact hlen1 i h
    have hctop2 : Chain db2 none top.bottomBuckets.reverse := mv.chain_other w1 hm (hgt.chain.ext x1 hw) fun b hb => htopb b (List.mem_reverse.1 hb)
    have hlast : top.bottomBuckets.reverse.getLast? = some top.root := by
      rw [List.getLast?_reverse]
      unfold Structure.root
      cases hh : top.bottomBuckets with
      | nil => exact absurd hh hgt.ne
      | cons b bb => rfl
    have hrev : ((ids.map (·.1)).reverse ++ ex.reverse ++ top.bottomBuckets).reverse = top.bottomBuckets.reverse ++ (ex ++ copies db1 bs) := by
      rw [hids]; simp [List.reverse_append]
    refine ⟨⟨fun _ => mv.plain hm, fun i hi => ?_, fun i hi => ?_, fun i l r hs hi => ?_⟩, fun e he c hc' h => ?_, ?_, ?_, ?_, fun i hi h => ?_, ?_⟩
    · rw [mv.len]
      rcases (hmemB i).1 hi with h | h | h
      · obtain ⟨j, h1, h2⟩ := (mem_copies _ _ _).1 h; omega
      · have := hextralt i h; omega
      · have := htop1 i h; omega
    · rcases (hmemB i).1 hi with h | h | h
      · obtain ⟨p, lits, dp, nl, l, r, g1, -⟩ := chain_mem ch2c i h
        exact ⟨l, r, by rw [g1]; rfl⟩
      · obtain ⟨p, lits, dp, nl, l, r, g1, -⟩ := chain_mem ch2e i h
        exact ⟨l, r, by rw [g1]; rfl⟩
      · obtain ⟨p, lits, dp, nl, l, r, g1, -⟩ := chain_mem hctop2 i (List.mem_reverse.2 h)
        exact ⟨l, r, by rw [g1]; rfl⟩
    · rw [hmemB] at hi
      simp only [not_or] at hi
      obtain ⟨i1, i2, i3⟩ := hi
      rcases Nat.lt_or_ge i db1.nodes.length with hil | hil
      · by_cases hib : i ∈ bs
        · obtain ⟨j, hj⟩ := List.getElem?_of_mem hib
          obtain ⟨lits, dp, nl, l', r', g1, g2, -⟩ := mv.link hm hj
          rw [g2] at hs
          cases hs
          obtain ⟨c1, c2⟩ := w1.children (show (db1.node i).shape = .inner l r by rw [g1]; rfl)
          have hi0 := hlen0 i ((hbsm i).1 hib)
          rw [hmemB, hmemB]
          exact ⟨fun h => by have := hnewge _ h; omega, fun h => by have := hnewge _ h; omega⟩
        · rw [mv.other i hil hib] at hs
          obtain ⟨c1, c2⟩ := w1.children hs
          obtain ⟨d1, d2⟩ := hsep1.avoid i l r hs (by rw [List.mem_append, not_or]; exact ⟨i3, i2⟩)
          rw [List.mem_append, not_or] at d1 d2
          rw [hmemB, hmemB]
          simp only [not_or]
          exact ⟨⟨fun h => by have := hcop _ h; omega, d1.2, d1.1⟩, ⟨fun h => by have := hcop _ h; omega, d2.2, d2.1⟩⟩
      · rcases mv.node_ge hil with h1 | ⟨j, b, h1, h2⟩
        · rw [h1] at hs; cases hs
        · exact absurd ((mem_copies _ _ _).2 ⟨j, (List.getElem?_eq_some_iff.1 h1).1, h2⟩) i1
    · rw [hmemB] at h
      have := hq e he c hc'
      rcases h with h | h | h
      · have := hcop _ h; omega
      · have := fr1 _ h; omega
      · exact hgt.avoid e he c hc' h
    · simp only
      rw [hids]
      have n1 : (copies db1 bs).Nodup := by unfold copies; exact List.nodup_range'
      have n2 : ex.Nodup := pw1.imp (fun h => by omega)
      rw [List.append_assoc, List.nodup_append, List.nodup_append]
      refine ⟨List.pairwise_reverse.2 (n1.imp Ne.symm), ⟨List.pairwise_reverse.2 (n2.imp Ne.symm), hgt.nodup, fun a ha b hb h => ?_⟩, fun a ha b hb h => ?_⟩
      · have := fr1 a (List.mem_reverse.1 ha); have := htop1 b hb; omega
      · have h1 := hcop a (List.mem_reverse.1 ha)
        rcases List.mem_append.1 hb with hb | hb
        · have := hextralt b (List.mem_reverse.1 hb); omega
        · have := htop1 b hb; omega
    · simp only
      intro h
      have := congrArg List.length h
      simp only [List.length_append, List.length_reverse, List.length_map, List.length_nil] at this
      omega
    · show Chain db2 none ((ids.map (·.1)).reverse ++ ex.reverse ++ top.bottomBuckets).reverse
      rw [hrev]
      exact chain_append hctop2 (by rw [hlast]; exact ch2)
    · simp only at hi
      rw [hmemB] at hi h
      rcases hi with hi | hi | hi
      · obtain ⟨j, hj, rfl⟩ := (mem_copies _ _ _).1 hi
        have hb := List.getElem?_eq_getElem hj
        obtain ⟨-, h2, h3, h4⟩ := mv.linkAt hm hb
        rw [h2] at h
        have h5 := hnewge _ h
        obtain ⟨p, hp⟩ := chain_mem hm.chain _ (List.mem_of_getElem? hb)
        have h6 := leftCon_child w1 hp
        have h7 := hlen0 _ ((hbsm _).1 (List.mem_of_getElem? hb))
        omega
      · obtain ⟨p, hp⟩ := chain_mem ch1 i hi
        rw [mv.leftCon_other (hextralt i hi) (hexb i hi)] at h
        obtain ⟨t, ht⟩ := lf1 i hi
        have hleaf : ∀ x ∈ top.bottomBuckets ++ ex, x ≠ (leftCon db1 i).id := fun x hx h => by
          obtain ⟨l', r', hs⟩ := hsep1.inner x hx
          rw [h, ht] at hs; cases hs
        rcases h with h | h | h
        · have := hcop _ h; have := (leftCon_link hp).1.id; omega
        · exact hleaf _ (List.mem_append_right _ h) rfl
        · exact hleaf _ (List.mem_append_left _ h) rfl
      · have hil := htop1 i hi
        have e1 : leftCon db2 i = leftCon db i := by
          rw [mv.leftCon_other (by omega) (htopb i hi)]
          unfold leftCon; rw [x1.node hil]
        rw [e1] at h
        obtain ⟨p, hp⟩ := chain_mem hgt.chain i (List.mem_reverse.2 hi)
        have := (leftCon_link hp).1.id
        rcases h with h | h | h
        · have := hcop _ h; omega
        · have := fr1 _ h; omega
        · exact hgt.left i hi h
    · obtain ⟨ut, hut, hDt⟩ := hgt.split
      have hul : (bot.tares.take u).length = u := by rw [List.length_take]; omega
      have hexl : ex.length = β + u := by rw [exl, List.length_append, hVl, hul]
      refine ⟨ut, ?_, fun T => ?_⟩
      · simp only [List.length_append, List.length_reverse, List.length_map, il, hexl, hVl]
        omega
      · show _ + tareVal T (top.tares ++ V ++ bot.tares) = tareVal T ((top.tares ++ V ++ bot.tares).take ut) +
          2 ^ ut * leftSum db2 T ((ids.map (·.1)).reverse ++ ex.reverse ++ top.bottomBuckets).reverse
        have htl : leftSum db2 T top.bottomBuckets.reverse = leftSum db T top.bottomBuckets.reverse := by
          rw [← leftSum_ext x1 hw T hgt.chain]
          refine mv.leftSum_other w1 hm T fun c hcx => ?_
          have hcx := List.mem_reverse.1 hcx
          obtain ⟨p, hp⟩ := chain_mem hgt.chain c (List.mem_reverse.2 hcx)
          have h1 := (leftCon_link hp).1.id
          have hcl := htop1 c hcx
          have e1 : leftCon db1 c = leftCon db c := by unfold leftCon; rw [x1.node hcl]
          rw [e1]
          refine ⟨by omega, htopb c hcx, by omega, fun hb => ?_⟩
          obtain ⟨lits, dp, nl, l, r, g1, -⟩ := hp
          have e2 : leftCon db c = l := by unfold leftCon; rw [g1]
          rw [e2] at hb
          exact (hbt.sep.avoid c l r (by rw [g1]; rfl) (fun h => htopb c hcx ((hbsm c).2 h))).1 ((hbsm _).1 hb)
        have h2 : leftSum db2 T ex = tareVal T (V ++ bot.tares.take u) := by
          rw [mv.leftSum_other w1 hm T fun c hcx => ?_, ls1]
          obtain ⟨p, hp⟩ := chain_mem ch1 c hcx
          refine ⟨hextralt c hcx, hexb c hcx, (leftCon_link hp).1.id, fun hb => ?_⟩
          obtain ⟨t, ht⟩ := lf1 c hcx
          obtain ⟨l', r', hs⟩ := hm.sep.inner _ hb
          rw [ht] at hs; cases hs
        have h3 : leftSum db2 T (copies db1 bs) = leftSum db T bot.bottomBuckets.reverse := by
          rw [mv.leftSum w1 hm T, ← hbs, leftSum_ext x1 hw T hbt.chain]
        rw [hrev, leftSum_append, leftSum_append, htl, h2, h3, hexl, List.length_reverse]
        rw [List.append_assoc top.tares, List.take_append_of_le_length (by omega), tareVal_append, tareVal_append, tareVal_append, hVl]
        have hDt' := hDt T
        have hD' := hD T
        generalize tareVal T top.tares = A at hDt' ⊢
        generalize tareVal T (top.tares.take ut) = B at hDt' ⊢
        generalize leftSum db T top.bottomBuckets.reverse = E at hDt' ⊢
        generalize tareVal T bot.tares = F at hD' ⊢
        generalize tareVal T (bot.tares.take u) = G at hD' ⊢
        generalize leftSum db T bot.bottomBuckets.reverse = H at hD' ⊢
        rw [← hut]
        have : R T + 2 ^ (ut + top.bottomBuckets.length + β) * D T + (A + 2 ^ (ut + top.bottomBuckets.length) * (tareVal T V + 2 ^ β * F)) =
            (R T + A) + 2 ^ (ut + top.bottomBuckets.length) * (tareVal T V + 2 ^ β * (D T + F)) := by
          rw [Nat.pow_add 2 (ut + top.bottomBuckets.length) β]; ring
        rw [this, hDt', hD', Nat.pow_add 2 ut, Nat.pow_add 2 β u]
        ring

end Dpw
end RustSat
