import Verif.Lemmas.DpwLCore
import Verif.Lemmas.Dpw
/-
Merging two structures of the watchdog: moving the bottom buckets of the old structure above the new one.
-/
namespace RustSat
open TotDb
namespace Dpw

variable {VM : Type} [ManageVars VM]

/-- The connection to every second output. -/
def half (p : Nat) : NodeCon := ⟨p, 0, 2, 1, none⟩

theorem half_map (p w : Nat) : (half p).map w = w / 2 := by
  unfold half NodeCon.map
  simp only [Nat.sub_zero, Nat.mul_one]
  split
  · rename_i h; have : w = 0 := by omega
    rw [this]
  · rfl

theorem half_conLen (db : Db) (p : Nat) : db.conLen (half p) = (db.node p).len / 2 := by
  rw [conLen_eq]
  unfold half NodeCon.steps
  simp

theorem full_map (p w : Nat) : (NodeCon.full p).map w = w := by
  unfold NodeCon.full NodeCon.map
  simp only [Nat.sub_zero, Nat.mul_one, Nat.div_one]
  split
  · omega
  · rfl

theorem full_conLen (db : Db) (p : Nat) : db.conLen (NodeCon.full p) = (db.node p).len := by
  rw [conLen_eq]
  unfold NodeCon.full NodeCon.steps
  simp

theorem FullCon.map {db : Db} {c : NodeCon} (h : FullCon db c) (w : Nat) : c.map w = w := by rw [h.2, full_map]

theorem FullCon.conLen {db : Db} {c : NodeCon} (h : FullCon db c) : db.conLen c = (db.node c.id).len := by
  rw [h.2, full_conLen]; rfl

/-- The bucket below a moved bucket. -/
def below (next len : Nat) : Nat → Nat
  | 0 => next
  | j + 1 => len + j

/-- The buckets `bs` were copied to the end of the database and redirected. -/
structure Moved (bs : List Nat) (next : Nat) (db db' : Db) : Prop where
  len : db'.nodes.length = db.nodes.length + bs.length
  lookup : db'.lookupLeaf = db.lookupLeaf
  dummy : db'.dummyId = db.dummyId
  other : ∀ i, i < db.nodes.length → i ∉ bs → db'.node i = db.node i
  bucket : ∀ (j : Nat) b, bs[j]? = some b → ∃ lits dp nl l r, db.node b = .unit lits dp nl l r ∧
    db'.node b = .unit (List.replicate lits.length .none) dp nl l r ∧
    db'.node (db.nodes.length + j) = .unit (lits ++ List.replicate (db'.conLen l + db'.conLen (half (below next db.nodes.length j)) - lits.length) .none)
      dp nl l (half (below next db.nodes.length j))

theorem Moved.nodeLen {bs : List Nat} {next : Nat} {db db' : Db} (h : Moved bs next db db') {i : Nat} (hi : i < db.nodes.length) :
    (db'.node i).len = (db.node i).len := by
  by_cases hb : i ∈ bs
  · obtain ⟨j, hj⟩ := List.getElem?_of_mem hb
    obtain ⟨lits, dp, nl, l, r, h1, h2, -⟩ := h.bucket j i hj
    rw [h1, h2]
    simp [Node.len]
  · rw [h.other i hi hb]

theorem node_set_ne (db : Db) {i b : Nat} (h : i ≠ b) (n : Node) : ({ db with nodes := db.nodes.set b n } : Db).node i = db.node i := by
  unfold Db.node
  simp only [List.getD_eq_getElem?_getD]
  rw [List.getElem?_set_ne (by omega)]

theorem node_set_self (db : Db) {b : Nat} (h : b < db.nodes.length) (n : Node) : ({ db with nodes := db.nodes.set b n } : Db).node b = n := by
  unfold Db.node
  simp only [List.getD_eq_getElem?_getD]
  rw [List.getElem?_set_self h]; rfl

theorem moveBuckets_spec : ∀ (bs : List Nat) (next : Nat) (db : Db), bs.Nodup → next < db.nodes.length →
    (∀ b ∈ bs, ∃ lits dp nl l r, db.node b = .unit lits dp nl l r ∧ l.id < b) →
    ∃ ids db', moveBuckets bs next db = some (ids, db') ∧ Moved bs next db db' ∧ ids.length = bs.length ∧
      ∀ (j : Nat) b, bs[j]? = some b → ids[j]? = some (db.nodes.length + j, (db.node b).len) := by
  intro bs
  induction bs with
  | nil =>
    intro next db _ _ _
    exact ⟨[], db, rfl, ⟨by simp, rfl, rfl, fun _ _ _ => rfl, by simp⟩, rfl, by simp⟩
  | cons b bs ih =>
    intro next db hnd hnext hb
    obtain ⟨hbn, hnd'⟩ := List.nodup_cons.1 hnd
    obtain ⟨lits, dp, nl, l, r, hn, hl⟩ := hb b (by simp)
    have hblt : b < db.nodes.length := Db.node_lt (by rw [hn]; intro h; cases h)
    unfold moveBuckets
    rw [hn]
    simp only [pushNode]
    generalize hdb1 : ({ db with nodes := db.nodes.set b (.unit (List.replicate lits.length .none) dp nl l r) } : Db) = db1
    have len1 : db1.nodes.length = db.nodes.length := by rw [← hdb1]; simp
    have ne1 : ∀ i, i ≠ b → db1.node i = db.node i := fun i hi => by rw [← hdb1]; exact node_set_ne db hi _
    have eq1 : db1.node b = .unit (List.replicate lits.length .none) dp nl l r := by rw [← hdb1]; exact node_set_self db hblt _
    generalize hk : db1.conLen l + db1.conLen ⟨next, 0, 2, 1, none⟩ - lits.length = k
    generalize hdb2 : ({ db1 with nodes := db1.nodes ++ [.unit (lits ++ List.replicate k .none) dp nl l ⟨next, 0, 2, 1, none⟩] } : Db) = db2
    have nodes2 : db2.nodes = db1.nodes ++ [.unit (lits ++ List.replicate k .none) dp nl l ⟨next, 0, 2, 1, none⟩] := by rw [← hdb2]
    have len2 : db2.nodes.length = db.nodes.length + 1 := by rw [nodes2]; simp [len1]
    have node2 : ∀ i, i < db.nodes.length → db2.node i = db1.node i := fun i hi => node_push_lt nodes2 (by omega)
    have new2 : db2.node db.nodes.length = .unit (lits ++ List.replicate k .none) dp nl l ⟨next, 0, 2, 1, none⟩ := by
      have := node_push_eq nodes2; rw [len1] at this; exact this
    have hblt' : ∀ b' ∈ bs, b' < db.nodes.length := fun b' hb' => by
      obtain ⟨_, _, _, _, _, h1, _⟩ := hb b' (by simp [hb'])
      exact Db.node_lt (by rw [h1]; intro h; cases h)
    have hsame : ∀ b' ∈ bs, db2.node b' = db.node b' := fun b' hb' => by
      rw [node2 b' (hblt' b' hb'), ne1 b' (fun h => hbn (h ▸ hb'))]
    obtain ⟨ids, db', e, hm, hlen, hids⟩ := ih db1.nodes.length db2 hnd' (by rw [len1, len2]; omega) (fun b' hb' => by
      rw [hsame b' hb']; exact hb b' (by simp [hb']))
    have e' := e
    rw [← hdb2, ← hdb1] at e'
    simp only at e'
    rw [e']
    refine ⟨_, _, rfl, ⟨?_, ?_, ?_, fun i hi hib => ?_, fun j b' hj => ?_⟩, by simp [hlen], fun j b' hj => ?_⟩
    · rw [hm.len, len2]; simp; omega
    · rw [hm.lookup, ← hdb2, ← hdb1]
    · rw [hm.dummy, ← hdb2, ← hdb1]
    · simp only [List.mem_cons, not_or] at hib
      rw [hm.other i (by omega) hib.2, node2 i hi, ne1 i hib.1]
    · cases j with
      | zero =>
        simp only [List.getElem?_cons_zero, Option.some.injEq] at hj
        subst hj
        refine ⟨lits, dp, nl, l, r, hn, ?_, ?_⟩
        · rw [hm.other b (by omega) hbn, node2 b hblt, eq1]
        · rw [Nat.add_zero, hm.other _ (by omega) (fun h => absurd (hblt' _ h) (by omega)), new2]
          have h1 : db'.conLen l = db1.conLen l := by
            rw [conLen_eq, conLen_eq, hm.nodeLen (by omega), node2 _ (by omega)]
          have h2 : db'.conLen (half next) = db1.conLen ⟨next, 0, 2, 1, none⟩ := by
            show _ = db1.conLen (half next)
            rw [half_conLen, half_conLen, hm.nodeLen (by omega), node2 _ hnext]
          simp only [below]
          rw [h1, h2, hk]
          rfl
      | succ j =>
        rw [List.getElem?_cons_succ] at hj
        obtain ⟨lits', dp', nl', l', r', g1, g2, g3⟩ := hm.bucket j b' hj
        rw [hsame b' (List.mem_of_getElem? hj)] at g1
        refine ⟨lits', dp', nl', l', r', g1, g2, ?_⟩
        have hbel : below db1.nodes.length db2.nodes.length j = below next db.nodes.length (j + 1) := by
          cases j with
          | zero => simp only [below]; omega
          | succ j => simp only [below]; omega
        rw [hbel, len2] at g3
        rw [show db.nodes.length + (j + 1) = db.nodes.length + 1 + j by omega]
        exact g3
    · cases j with
      | zero =>
        simp only [List.getElem?_cons_zero, Option.some.injEq] at hj
        subst hj
        rw [List.getElem?_cons_zero, hn]
        simp [Node.len]
      | succ j =>
        rw [List.getElem?_cons_succ] at hj ⊢
        rw [hids j b' hj, len2, hsame b' (List.mem_of_getElem? hj)]
        congr 2
        omega

/-- The buckets that are moved: consecutive buckets, starting with one that has no bucket below. -/
structure Movable (bs : List Nat) (next : Nat) (db : Db) : Prop where
  sep : Sep bs db
  nodup : bs.Nodup
  chain : Chain db none bs
  left : ∀ b ∈ bs, (leftCon db b).id ∉ bs
  nextLt : next < db.nodes.length
  nextOut : next ∉ bs

theorem chain_get {db : Db} : ∀ {bs : List Nat} {prev : Option Nat}, Chain db prev bs → ∀ (j : Nat) b, bs[j]? = some b →
    (j = 0 → Link db prev b) ∧ ∀ j', j = j' + 1 → ∃ p, bs[j']? = some p ∧ Link db (some p) b := by
  intro bs
  induction bs with
  | nil => intro prev _ j b h; simp at h
  | cons x bs ih =>
    intro prev h j b hj
    cases j with
    | zero =>
      simp only [List.getElem?_cons_zero, Option.some.injEq] at hj
      subst hj
      exact ⟨fun _ => h.1, fun j' h => by omega⟩
    | succ j =>
      rw [List.getElem?_cons_succ] at hj
      refine ⟨fun h => by omega, fun j' hj' => ?_⟩
      have : j' = j := by omega
      subst this
      obtain ⟨h1, h2⟩ := ih h.2 j' b hj
      cases j' with
      | zero => exact ⟨x, by simp, h1 rfl⟩
      | succ j => simpa using h2 j rfl

namespace Moved
variable {bs : List Nat} {next : Nat} {db db' : Db}

theorem node_ge (h : Moved bs next db db') {i : Nat} (hi : db.nodes.length ≤ i) :
    db'.node i = .dummy ∨ ∃ j b, bs[j]? = some b ∧ i = db.nodes.length + j := by
  rcases Nat.lt_or_ge i db'.nodes.length with h1 | h1
  · right
    rw [h.len] at h1
    exact ⟨i - db.nodes.length, bs[i - db.nodes.length]'(by omega), List.getElem?_eq_getElem _, by omega⟩
  · left; exact Db.node_out h1

/-- The left and right child of a bucket. -/
theorem link (hm : Movable bs next db) (h : Moved bs next db db') {j : Nat} {b : Nat} (hj : bs[j]? = some b) :
    ∃ lits dp nl l r, db.node b = .unit lits dp nl l r ∧ db'.node b = .unit (List.replicate lits.length .none) dp nl l r ∧
    db'.node (db.nodes.length + j) = .unit (lits ++ List.replicate (db'.conLen l + db'.conLen (half (below next db.nodes.length j)) - lits.length) .none)
      dp nl l (half (below next db.nodes.length j)) ∧ FullCon db l ∧ l.id ∉ bs ∧
    ((j = 0 ∧ db.node r.id = .dummy) ∨ ∃ j' p, j = j' + 1 ∧ bs[j']? = some p ∧ r = half p) := by
  obtain ⟨lits, dp, nl, l, r, h1, h2, h3⟩ := h.bucket j b hj
  have hl : leftCon db b = l := by unfold leftCon; rw [h1]
  obtain ⟨c1, c2⟩ := chain_get hm.chain j b hj
  have hmem := List.mem_of_getElem? hj
  refine ⟨lits, dp, nl, l, r, h1, h2, h3, ?_, by rw [← hl]; exact hm.left b hmem, ?_⟩
  · obtain ⟨p, hp⟩ := chain_mem hm.chain b hmem
    rw [← hl]; exact leftCon_link hp
  · cases j with
    | zero =>
      left
      obtain ⟨_, _, _, _, _, g1, g2, g3⟩ := c1 rfl
      rw [h1] at g1
      cases g1
      exact ⟨rfl, g3⟩
    | succ j =>
      right
      obtain ⟨p, hp, _, _, _, _, _, g1, g2, g3⟩ := c2 j rfl
      rw [h1] at g1
      cases g1
      exact ⟨j, p, rfl, hp, g3⟩

theorem back (hm : Movable bs next db) (h : Moved bs next db db') {i k v : Nat} {l : Lit} {s : Option Semantics}
    (hd : (db'.node i).outData k = some (v, .lit l s)) :
    (i < db.nodes.length ∧ i ∉ bs ∧ (db.node i).outData k = some (v, .lit l s)) ∨
      ∃ j b, bs[j]? = some b ∧ i = db.nodes.length + j ∧ (db.node b).outData k = some (v, .lit l s) := by
  rcases Nat.lt_or_ge i db.nodes.length with hi | hi
  · left
    by_cases hb : i ∈ bs
    · exfalso
      obtain ⟨j, hj⟩ := List.getElem?_of_mem hb
      obtain ⟨lits, dp, nl, l', r, -, h2, -⟩ := h.bucket j i hj
      rw [h2] at hd
      simp only [Node.outData, Option.map_eq_some_iff, Prod.mk.injEq] at hd
      obtain ⟨d, h3, -, rfl⟩ := hd
      have := List.eq_of_mem_replicate (List.mem_of_getElem? h3)
      cases this
    · rw [h.other i hi hb] at hd
      exact ⟨hi, hb, hd⟩
  · right
    rcases h.node_ge hi with h1 | ⟨j, b, h1, rfl⟩
    · rw [h1] at hd; cases hd
    · refine ⟨j, b, h1, rfl, ?_⟩
      obtain ⟨lits, dp, nl, l', r, h2, -, h3⟩ := h.bucket j b h1
      rw [h3] at hd
      rw [h2]
      simp only [Node.outData, Option.map_eq_some_iff, Prod.mk.injEq] at hd ⊢
      obtain ⟨d, h4, h5, rfl⟩ := hd
      refine ⟨_, ?_, h5, rfl⟩
      rcases Nat.lt_or_ge k lits.length with hk | hk
      · rw [List.getElem?_append_left hk] at h4; exact h4
      · rw [List.getElem?_append_right hk] at h4
        have := List.eq_of_mem_replicate (List.mem_of_getElem? h4)
        cases this

theorem fwd (h : Moved bs next db db') {j b k v : Nat} {d : LitData} (hj : bs[j]? = some b)
    (hd : (db.node b).outData k = some (v, d)) : (db'.node (db.nodes.length + j)).outData k = some (v, d) := by
  obtain ⟨lits, dp, nl, l', r, h2, -, h3⟩ := h.bucket j b hj
  rw [h2] at hd
  rw [h3]
  simp only [Node.outData, Option.map_eq_some_iff, Prod.mk.injEq] at hd ⊢
  obtain ⟨d, h4, h5, rfl⟩ := hd
  refine ⟨_, ?_, h5, rfl⟩
  rw [List.getElem?_append_left (List.getElem?_eq_some_iff.1 h4).1]
  exact h4

theorem leaf (h : Moved bs next db db') {i : Nat} {l : Lit} : db'.node i = .leaf l ↔ db.node i = .leaf l := by
  rcases Nat.lt_or_ge i db.nodes.length with hi | hi
  · by_cases hb : i ∈ bs
    · obtain ⟨j, hj⟩ := List.getElem?_of_mem hb
      obtain ⟨lits, dp, nl, l', r, h1, h2, -⟩ := h.bucket j i hj
      rw [h1, h2]; simp
    · rw [h.other i hi hb]
  · rw [Db.node_out hi]
    rcases h.node_ge hi with h1 | ⟨j, b, h1, rfl⟩
    · rw [h1]
    · obtain ⟨lits, dp, nl, l', r, -, -, h3⟩ := h.bucket j b h1
      rw [h3]; simp

theorem plain (hm : Movable bs next db) (h : Moved bs next db db') (i : Nat) : (db'.node i).isGeneral = false := by
  rcases Nat.lt_or_ge i db.nodes.length with hi | hi
  · by_cases hb : i ∈ bs
    · obtain ⟨j, hj⟩ := List.getElem?_of_mem hb
      obtain ⟨lits, dp, nl, l', r, -, h2, -⟩ := h.bucket j i hj
      rw [h2]; rfl
    · rw [h.other i hi hb]; exact hm.sep.plain i
  · rcases h.node_ge hi with h1 | ⟨j, b, h1, rfl⟩
    · rw [h1]; rfl
    · obtain ⟨lits, dp, nl, l', r, -, -, h3⟩ := h.bucket j b h1
      rw [h3]; rfl

theorem conLen (h : Moved bs next db db') {c : NodeCon} (hc : c.id < db.nodes.length) : db'.conLen c = db.conLen c := by
  rw [conLen_eq, conLen_eq, h.nodeLen hc]

theorem unitCon (hm : Movable bs next db) (h : Moved bs next db db') {c : NodeCon} (hc : UnitCon db c) : UnitCon db' c :=
  ⟨by rw [h.len]; have := hc.id; omega, hc.wf, hc.mult, by rw [h.nodeLen hc.id]; exact hc.offset, h.plain hm _⟩

theorem below_lt (hm : Movable bs next db) {j : Nat} : below next db.nodes.length j < db.nodes.length + j := by
  cases j with
  | zero => simp only [below]; have := hm.nextLt; omega
  | succ j => simp only [below]; omega

/-- The moved buckets are not shorter than the old ones. -/
theorem fits (hw : db.WF) (hm : Movable bs next db) (h : Moved bs next db db') {j b : Nat} (hj : bs[j]? = some b) {lits : List LitData} {dp nl : Nat} {l r : NodeCon}
    (hn : db.node b = .unit lits dp nl l r) : lits.length ≤ db'.conLen l + db'.conLen (half (below next db.nodes.length j)) := by
  have hok := hw.nodes b _ (Db.getElem?_node (Db.node_lt (by rw [hn]; intro h; cases h)))
  rw [hn] at hok
  obtain ⟨o1, o2, o3, o4, o5⟩ := hok
  obtain ⟨lits', dp', nl', l', r', h1, h2, h3, h4, h5, h6⟩ := h.link hm hj
  rw [hn] at h1
  cases h1
  rw [o5, h.conLen o3.id]
  apply Nat.add_le_add_left
  rcases h6 with ⟨rfl, h6⟩ | ⟨j', p, rfl, hp, rfl⟩
  · rw [conLen_eq, h6]
    have : r.steps (Node.dummy).len = 0 := by
      show r.steps 0 = 0
      exact r.steps_zero
    rw [this]; omega
  · rw [half_conLen, half_conLen]
    simp only [below]
    obtain ⟨lits2, dp2, nl2, l2, r2, g1, -, g3⟩ := h.bucket j' p hp
    rw [g1, g3]
    simp only [Node.len, List.length_append]
    omega

theorem wf (hw : db.WF) (hm : Movable bs next db) (h : Moved bs next db db') : db'.WF := by
  refine ⟨fun i n hi => ?_, fun l id hl => ?_, fun id hid => ?_⟩
  · have hn : db'.node i = n := Db.node_eq hi
    have hilt := (List.getElem?_eq_some_iff.1 hi).1
    rw [h.len] at hilt
    rcases Nat.lt_or_ge i db.nodes.length with hi' | hi'
    · have hok := hw.nodes i _ (Db.getElem?_node hi')
      by_cases hb : i ∈ bs
      · obtain ⟨j, hj⟩ := List.getElem?_of_mem hb
        obtain ⟨lits, dp, nl, l', r, h1, h2, -⟩ := h.bucket j i hj
        rw [h1] at hok
        rw [h2] at hn
        subst hn
        obtain ⟨o1, o2, o3, o4, o5⟩ := hok
        exact ⟨o1, o2, h.unitCon hm o3, h.unitCon hm o4, by rw [List.length_replicate, o5, h.conLen o3.id, h.conLen o4.id]⟩
      · rw [h.other i hi' hb] at hn
        rw [hn] at hok
        cases n with
        | leaf => trivial
        | dummy => trivial
        | general => have := hm.sep.plain i; rw [hn] at this; cases this
        | unit lits dp nl l r =>
          obtain ⟨o1, o2, o3, o4, o5⟩ := hok
          exact ⟨o1, o2, h.unitCon hm o3, h.unitCon hm o4, by rw [o5, h.conLen o3.id, h.conLen o4.id]⟩
    · rcases h.node_ge hi' with h1 | ⟨j, b, h1, rfl⟩
      · rw [h1] at hn; subst hn; trivial
      · obtain ⟨lits, dp, nl, l', r, h2, h3, h4, h5, h6, -⟩ := h.link hm h1
        rw [h4] at hn
        subst hn
        have hl := h5.1.id
        have hbl := below_lt hm (j := j)
        have hj := (List.getElem?_eq_some_iff.1 h1).1
        refine ⟨by omega, hbl, h.unitCon hm h5.1, (half_unit (by rw [h.len]; show below next db.nodes.length j < _; omega) (h.plain hm _)).1, ?_⟩
        have := h.fits hw hm h1 h2
        simp only [List.length_append, List.length_replicate]
        show _ = db'.conLen l' + db'.conLen (half _)
        omega
  · have h1 := hw.lookup l id (by rw [← h.lookup]; exact hl)
    have h2 := h.leaf.2 (Db.node_eq h1)
    have hlt : id < db'.nodes.length := Db.node_lt (by rw [h2]; intro h; cases h)
    rw [← h2]; exact Db.getElem?_node hlt
  · have h1 := hw.dummy id (by rw [← h.dummy]; exact hid)
    have hlt := (List.getElem?_eq_some_iff.1 h1).1
    have hd := Db.node_eq h1
    have hb : id ∉ bs := fun hb => by
      obtain ⟨l, r, hs⟩ := hm.sep.inner id hb
      rw [hd] at hs; cases hs
    rw [← hd, ← h.other id hlt hb]
    exact Db.getElem?_node (by rw [h.len]; omega)

/-- Output literals of the moved buckets. -/
theorem pre {n : Nat} {cls : ClauseSet} {ins : List Lit} {own : List Nat} (hp : PreCore db n cls ins own) (hm : Movable bs next db) (h : Moved bs next db db') :
    PreCore db' n cls ins own := by
  have hback : ∀ i k v l, OutAt db' i k v l → ∃ i', OutAt db i' k v l := by
    rintro i k v l ⟨s, hs⟩
    rcases h.back hm hs with ⟨-, -, h1⟩ | ⟨j, b, -, -, h1⟩
    · exact ⟨i, s, h1⟩
    · exact ⟨b, s, h1⟩
  have hfwd : ∀ i k v l, OutAt db i k v l → ∃ i', OutAt db' i' k v l := by
    rintro i k v l ⟨s, hs⟩
    by_cases hb : i ∈ bs
    · obtain ⟨j, hj⟩ := List.getElem?_of_mem hb
      exact ⟨_, s, h.fwd hj hs⟩
    · have hi : i < db.nodes.length := Db.node_lt (by intro h; rw [h] at hs; cases hs)
      exact ⟨i, s, by rw [h.other i hi hb]; exact hs⟩
  refine ⟨h.wf hp.wf hm, ⟨fun i l hl => hp.aux.leaf i l (h.leaf.1 hl), fun i k v l ho => ?_, fun i k v l j l' ho hl => ?_, ?_⟩,
    fun j l hl => hp.leafIn j l (h.leaf.1 hl), fun i k v l ho => ?_, hp.ownLt, hp.insLt, hp.disj, fun c hc x hx => ?_⟩
  · obtain ⟨i', ho'⟩ := hback i k v l ho
    exact hp.aux.out i' k v l ho'
  · obtain ⟨i', ho'⟩ := hback i k v l ho
    exact hp.aux.disj i' k v l j l' ho' (h.leaf.1 hl)
  · rintro i k v i' k' v' l ⟨s, hs⟩ ⟨s', hs'⟩
    rcases h.back hm hs with ⟨a1, a2, a3⟩ | ⟨j, b, a1, a2, a3⟩ <;> rcases h.back hm hs' with ⟨b1, b2, b3⟩ | ⟨j', b', b1, b2, b3⟩
    · exact hp.aux.inj i k v i' k' v' l ⟨s, a3⟩ ⟨s', b3⟩
    · obtain ⟨e, -⟩ := hp.aux.inj i k v b' k' v' l ⟨s, a3⟩ ⟨s', b3⟩
      subst e
      exact absurd (List.mem_of_getElem? b1) a2
    · obtain ⟨e, -⟩ := hp.aux.inj b k v i' k' v' l ⟨s, a3⟩ ⟨s', b3⟩
      subst e
      exact absurd (List.mem_of_getElem? a1) b2
    · obtain ⟨e, e'⟩ := hp.aux.inj b k v b' k' v' l ⟨s, a3⟩ ⟨s', b3⟩
      subst e
      have := (List.getElem?_inj (List.getElem?_eq_some_iff.1 a1).1 hm.nodup).1 (a1.trans b1.symm)
      exact ⟨by omega, e'⟩
  · obtain ⟨i', ho'⟩ := hback i k v l ho
    exact hp.outOwn i' k v l ho'
  · rcases hp.vars c hc x hx with ⟨j, l, h1, h2⟩ | ⟨i, k, v, l, h1, h2⟩
    · exact Or.inl ⟨j, l, h.leaf.2 h1, h2⟩
    · obtain ⟨i', ho'⟩ := hfwd i k v l h1
      exact Or.inr ⟨i', k, v, l, ho', h2⟩

end Moved
theorem map_mono (c : NodeCon) {v w : Nat} (h : v ≤ w) : c.map v ≤ c.map w := by
  rw [NodeCon.map_eq, NodeCon.map_eq]
  exact Nat.mul_le_mul_right _ (c.steps_mono h)

namespace Moved
variable {bs : List Nat} {next : Nat} {db db' : Db}

/-- Strict levels of the nodes before moving. -/
theorem strict (hm : Movable bs next db) (h : Moved bs next db db') {W : Nat → Nat} {b : Asg} (hs : StrictW db' W b) :
    ∃ W', StrictW db W' b := by
  classical
  refine ⟨fun i => if i ∈ bs then W (db.nodes.length + bs.idxOf i) else if db.node i = .dummy then 0 else W i, ?_⟩
  have hin : ∀ (j : Nat) x, bs[j]? = some x → bs.idxOf x = j := by
    intro j x hx
    have hj := List.getElem?_eq_some_iff.1 hx
    have hxm := List.mem_of_getElem? hx
    have h1 : bs[bs.idxOf x]? = some x := by
      rw [List.getElem?_eq_getElem (List.idxOf_lt_length_iff.2 hxm)]; simp
    exact ((List.getElem?_inj hj.1 hm.nodup).1 (hx.trans h1.symm)).symm
  have hnb : ∀ i, i ∉ bs → (if i ∈ bs then W (db.nodes.length + bs.idxOf i) else if db.node i = .dummy then 0 else W i) ≤ W i := by
    intro i hi
    rw [if_neg hi]
    split
    · omega
    · exact Nat.le_refl _
  refine ⟨fun i k v l ho => ?_, fun i l hl ht => ?_, fun i l r hsh => ?_⟩
  · obtain ⟨s, hd⟩ := ho
    have hnd : db.node i ≠ .dummy := by intro h; rw [h] at hd; cases hd
    by_cases hb : i ∈ bs
    · obtain ⟨j, hj⟩ := List.getElem?_of_mem hb
      simp only [if_pos hb, hin j i hj]
      exact hs.out _ k v l ⟨s, h.fwd hj hd⟩
    · simp only [if_neg hb, if_neg hnd]
      exact hs.out i k v l ⟨s, by rw [h.other i (Db.node_lt hnd) hb]; exact hd⟩
  · have hb : i ∉ bs := fun hb => by
      obtain ⟨l', r', hsh⟩ := hm.sep.inner i hb
      rw [hl] at hsh; cases hsh
    simp only [if_neg hb]
    rw [if_neg (by rw [hl]; intro h; cases h)]
    exact hs.leaf i l (h.leaf.2 hl) ht
  · have hnd : db.node i ≠ .dummy := by intro h; rw [h] at hsh; cases hsh
    by_cases hb : i ∈ bs
    · obtain ⟨j, hj⟩ := List.getElem?_of_mem hb
      obtain ⟨lits, dp, nl, l', r', h1, h2, h3, h4, h5, h6⟩ := h.link hm hj
      rw [h1] at hsh
      cases hsh
      simp only [if_pos hb, hin j i hj]
      have hi := hs.inner (db.nodes.length + j) l (half (below next db.nodes.length j)) (by rw [h3]; rfl)
      have hL := map_mono l (hnb l.id h5)
      refine Nat.le_trans (Nat.add_le_add hL ?_) hi
      rcases h6 with ⟨rfl, h6⟩ | ⟨j', p, rfl, hp, rfl⟩
      · have hrb : r.id ∉ bs := fun hb => by
          obtain ⟨l', r', hsh⟩ := hm.sep.inner _ hb
          rw [h6] at hsh; cases hsh
        rw [if_neg hrb, if_pos h6, NodeCon.map_zero]
        omega
      · have hpb := List.mem_of_getElem? hp
        have e1 : (half p).id = p := rfl
        have e2 : (half (below next db.nodes.length (j' + 1))).id = db.nodes.length + j' := rfl
        simp only [e1, e2]
        rw [if_pos hpb, hin j' p hp, half_map, half_map]
    · simp only [if_neg hb, if_neg hnd]
      obtain ⟨c1, c2⟩ := hm.sep.avoid i l r hsh hb
      have hi := hs.inner i l r (by rw [h.other i (Db.node_lt hnd) hb]; exact hsh)
      exact Nat.le_trans (Nat.add_le_add (map_mono l (hnb _ c1)) (map_mono r (hnb _ c2))) hi

theorem hasLit_fwd (h : Moved bs next db db') {j b k : Nat} {l : Lit} (hj : bs[j]? = some b) (hm : Movable bs next db)
    (hl : HasLit db b k .if_ l) : HasLit db' (db.nodes.length + j) k .if_ l := by
  rcases hasLit_iff.1 hl with ⟨h1, -⟩ | ⟨s, -, h2, h3⟩
  · obtain ⟨l', r', hsh⟩ := hm.sep.inner b (List.mem_of_getElem? hj)
    rw [h1] at hsh; cases hsh
  · exact hasLit_iff.2 (Or.inr ⟨s, h.plain hm _, h.fwd hj h2, h3⟩)

theorem hasLit_bwd (h : Moved bs next db db') {j b k : Nat} {l : Lit} (hj : bs[j]? = some b) (hm : Movable bs next db)
    (hl : HasLit db' (db.nodes.length + j) k .if_ l) : HasLit db b k .if_ l := by
  rcases hasLit_iff.1 hl with ⟨h1, -⟩ | ⟨s, -, h2, h3⟩
  · rw [h.leaf] at h1
    have := Db.node_lt (db := db) (id := db.nodes.length + j) (by rw [h1]; intro h; cases h)
    omega
  · rcases h.back hm h2 with ⟨a, -⟩ | ⟨j', b', g1, g2, g3⟩
    · omega
    · have : j' = j := by omega
      subst this
      rw [hj] at g1
      cases g1
      exact hasLit_iff.2 (Or.inr ⟨s, hm.sep.plain _, g3, h3⟩)

/-- The nodes that are not moved buckets. -/
theorem sound (hw : db.WF) (hm : Movable bs next db) (h : Moved bs next db db') {C : ClauseSet} (hs : ∀ m i, LSound db C m i) (m i : Nat)
    (hi : ∀ j, j < bs.length → i ≠ db.nodes.length + j) : LSound db' C m i := by
  rcases Nat.lt_or_ge i db.nodes.length with hi' | hi'
  · by_cases hb : i ∈ bs
    · refine LSound.blank fun k l hsh hl => ?_
      rcases hasLit_iff.1 hl with ⟨h1, -⟩ | ⟨s, -, h2, h3⟩
      · rw [h1] at hsh; exact hsh rfl
      · rcases h.back hm h2 with ⟨-, a, -⟩ | ⟨j', b', g1, g2, g3⟩
        · exact a hb
        · omega
    · refine (hs m i).congr (h.other i hi' hb) fun l r hsh => ?_
      obtain ⟨c1, c2⟩ := hw.children hsh
      obtain ⟨d1, d2⟩ := hm.sep.avoid i l r hsh hb
      exact ⟨h.other _ (by omega) d1, h.other _ (by omega) d2⟩
  · intro lc rc hsh
    rcases h.node_ge hi' with h1 | ⟨j, b, h1, h2⟩
    · rw [h1] at hsh; cases hsh
    · exact absurd h2 (hi j (List.getElem?_eq_some_iff.1 h1).1)

/-- The moved buckets, for the old values of the right child. -/
theorem soundAt (hm : Movable bs next db) (h : Moved bs next db db') {C : ClauseSet} (hs : ∀ m i, LSound db C m i) {j b : Nat}
    (hj : bs[j]? = some b) {m : Nat} (h0 : j = 0 → m = 0) (h1 : ∀ j' p, j = j' + 1 → bs[j']? = some p → m = (db.node p).len / 2) :
    LSound db' C m (db.nodes.length + j) := by
  obtain ⟨lits, dp, nl, l', r', g1, g2, g3, g4, g5, g6⟩ := h.link hm hj
  intro lc rc hsh x hx wl wr hl hr hrm k y hy hk
  rw [g3] at hsh
  cases hsh
  have hl' : LevelOK db x l'.id wl := (LevelOK.congr (h.other _ g4.1.id g5)).1 hl
  rw [half_map] at hrm hk
  rcases g6 with ⟨rfl, h6⟩ | ⟨j', p, rfl, hp, rfl⟩
  · have := h0 rfl
    refine hs _ b l' r' (by rw [g1]; rfl) x hx wl 0 hl' ⟨by omega, fun k l hk => by omega⟩ (Nat.le_refl _) k y (h.hasLit_bwd hj hm hy) ?_
    omega
  · have hmm := h1 j' p rfl hp
    have e1 : (half p).id = p := rfl
    have e2 : (half (below next db.nodes.length (j' + 1))).id = db.nodes.length + j' := rfl
    rw [e2] at hr
    refine hs _ b l' (half p) (by rw [g1]; rfl) x hx wl (min wr (db.node p).len) hl' ⟨by rw [e1]; omega, fun k l hk hl => ?_⟩ (Nat.le_refl _) k y
      (h.hasLit_bwd hj hm hy) ?_
    · rw [e1] at hl
      exact hr.2 k l (by omega) (h.hasLit_fwd hp hm hl)
    · rw [half_map]; omega

end Moved

/-! ## Extending the outputs of the moved buckets -/

theorem mem_valsRange {n : Node} (hg : n.isGeneral = false) {lo hi v : Nat} :
    v ∈ n.valsRange lo hi ↔ lo ≤ v ∧ v < hi ∧ 1 ≤ v ∧ v ≤ n.maxVal := by
  cases n with
  | leaf l => simp only [Node.valsRange, Node.maxVal]; split <;> simp <;> omega
  | unit lits a b c d => simp only [Node.valsRange, Node.maxVal, List.mem_range'_1]; omega
  | general lits => cases hg
  | dummy => simp [Node.valsRange, Node.maxVal]; omega

theorem half_revMap (p v : Nat) : (half p).revMap v = 2 * v := by
  unfold half NodeCon.revMap
  simp only [Nat.div_one, Nat.add_zero]
  omega

omit [ManageVars VM] in
theorem lstep_clause {st : St VM} {c : Clause} (h : ∀ W b, StrictW st.db W b → Clause.sat b c) : LStep st (addClause st c) := by
  refine ⟨[c], rfl, fun W b hb x hx => ?_, fun C m i hl => hl.mono fun x hx => List.mem_append_left _ hx⟩
  simp only [List.mem_cons, List.not_mem_nil, or_false] at hx
  subst hx
  exact h W b hb

omit [ManageVars VM] in
/-- The output follows from a level of the right child. -/
def ValDone (st : St VM) (l : NodeCon) (p : Nat) (olit : Lit) (val rval : Nat) : Prop :=
  ∀ b, ClauseSet.sat b st.cls → ∀ wl wr, LevelOK st.db b l.id wl → LevelOK st.db b p wr → rval ≤ wr → val - rval / 2 ≤ wl → olit.holds b = true

theorem ValDone.step {st st' : St VM} {l : NodeCon} {p : Nat} {olit : Lit} {val rval : Nat} (h : ValDone st l p olit val rval) (hs : Step st st') :
    ValDone st' l p olit val rval := by
  intro b hb wl wr h1 h2
  obtain ⟨new, e, -⟩ := hs.cls
  exact h b (fun c hc => hb c (by rw [e]; exact List.mem_append_left _ hc)) wl wr (h1.ref hs.ref) (h2.ref hs.ref)

/-- The connection of a bucket to its children. -/
structure BucketAt (db : Db) (id : Nat) (lits : List LitData) (l : NodeCon) (p : Nat) : Prop where
  node : ∃ dp nl, db.node id = .unit lits dp nl l (half p)
  full : FullCon db l
  lLt : l.id < id
  pLt : p < id
  pGen : (db.node p).isGeneral = false

theorem FullCon.rel {R : LitData → LitData → Prop} {a b : Db} (h : DbRel R a b) {c : NodeCon} (hc : FullCon a c) : FullCon b c :=
  ⟨⟨by rw [h.len]; exact hc.1.id, hc.1.wf, hc.1.mult, by rw [(h.node _).len]; exact hc.1.offset, by rw [(h.node _).isGeneral]; exact hc.1.notGeneral⟩, hc.2⟩

omit [ManageVars VM] in
theorem BucketAt.step {st st' : St VM} {id : Nat} {lits : List LitData} {l : NodeCon} {p : Nat} (h : BucketAt st.db id lits l p) (hs : DbRef st.db st'.db)
    (he : st'.db.node id = st.db.node id) : BucketAt st'.db id lits l p :=
  ⟨by rw [he]; exact h.node, FullCon.rel hs h.full, h.lLt, h.pLt, by rw [(hs.node p).isGeneral]; exact h.pGen⟩

variable [LawfulVM VM]

theorem extendVals_spec {id orm : Nat} {lits : List LitData} {l : NodeCon} {p : Nat} {olit : Lit} {val : Nat} {s : Semantics} (hv : 1 ≤ val)
    (ho : lits[val - 1]? = some (.lit olit (some s))) : ∀ (vals : List Nat) (st : St VM), st.db.WF → BucketAt st.db id lits l p →
    val ≤ (st.db.node l.id).len + orm → (∀ r ∈ vals, 1 ≤ r ∧ r ≤ (st.db.node p).len ∧ orm + 1 ≤ r / 2 ∧ r / 2 ≤ val) →
    ∃ st', extendVals l (half p) olit val vals st = some st' ∧ Step st st' ∧ LStep st st' ∧ (∀ j, id ≤ j → st'.db.node j = st.db.node j) ∧
      ∀ r ∈ vals, ValDone st' l p olit val r := by
  intro vals
  induction vals with
  | nil => intro st _ _ _ _; exact ⟨st, rfl, Step.refl _, LStep.refl _, fun _ _ => rfl, by simp⟩
  | cons r vals ih =>
    intro st hw hb hlen hvals
    obtain ⟨v1, v2, v3, v4⟩ := hvals r (by simp)
    have hposs : l.isPossible (val - (half p).map r) = true := by
      rw [hb.full.2]; unfold NodeCon.isPossible NodeCon.full; simp [Nat.mod_one]
    obtain ⟨rlit, st1, e1, s1, l1, n1, -⟩ := define_spec st p (r - 1) .if_ hw hb.pGen (by omega)
    have loc1 := define_loc hw hb.pGen (by omega) e1
    have hw1 := s1.ref.wf hw
    have hb1 := hb.step s1.ref (n1 id hb.pLt)
    have hlen1 : ∀ j, (st1.db.node j).len = (st.db.node j).len := fun j => (s1.ref.node j).len
    have hout : ∀ {st' : St VM}, BucketAt st'.db id lits l p → OutAt st'.db id (val - 1) val olit := fun hb' => by
      obtain ⟨dp, nl, hn⟩ := hb'.node
      refine ⟨some s, ?_⟩
      rw [hn]
      simp only [Node.outData, ho, Option.map_some]
      rw [Nat.sub_add_cancel hv]
    have hlev : ∀ {st' : St VM}, BucketAt st'.db id lits l p → ∀ W b, StrictW st'.db W b → val - r / 2 ≤ W l.id → r ≤ W p → olit.holds b = true := by
      intro st' hb' W b hW h1 h2
      obtain ⟨dp, nl, hn⟩ := hb'.node
      have := hW.inner id l (half p) (by rw [hn]; rfl)
      rw [FullCon.map hb'.full, half_map] at this
      refine (hW.out id _ val olit (hout hb')).2 ?_
      have e : (half p).id = p := rfl
      rw [e] at this
      omega
    unfold extendVals
    simp only [hposs, if_true]
    have e1' : define st (half p).id (r - 1) .if_ = some (rlit, st1) := e1
    rw [e1']
    simp only [half_map]
    by_cases hl0 : val - r / 2 = 0
    · rw [if_pos hl0]
      have hlv : ∀ W b, StrictW st1.db W b → Clause.sat b (Atomics.litImplLit rlit olit) := fun W b hW => by
        rw [Am1.sat_litImplLit]
        intro hr
        have := l1.level hW hr
        exact hlev hb1 W b hW (by omega) (by omega)
      have s2 : Step st1 (addClause st1 (Atomics.litImplLit rlit olit)) := step_clause (fun b hb' => hlv _ b (hb'.levels hw1)) (by
        intro x hx
        simp only [Atomics.litImplLit, List.mem_cons, List.not_mem_nil, or_false] at hx
        rcases hx with rfl | rfl
        · rw [Lit.var_neg]; exact l1.varIn
        · exact Or.inr ⟨id, _, _, _, hout hb1, rfl⟩)
      have loc2 := lstep_clause (st := st1) hlv
      obtain ⟨st', e3, s3, loc3, n3, d3⟩ := ih (addClause st1 (Atomics.litImplLit rlit olit)) hw1 hb1 (by
        show val ≤ (st1.db.node l.id).len + orm; rw [hlen1]; exact hlen) (fun x hx => by
        show 1 ≤ x ∧ x ≤ (st1.db.node p).len ∧ _
        rw [hlen1]; exact hvals x (by simp [hx]))
      refine ⟨st', e3, Step.trans hw s1 (Step.trans hw1 s2 s3), loc1.trans (loc2.trans loc3 s3.ref) (s2.ref.trans s3.ref),
        fun j hj => (n3 j hj).trans (n1 j (by have := hb.pLt; omega)), fun x hx => ?_⟩
      rcases List.mem_cons.1 hx with rfl | hx
      · refine ValDone.step (st := addClause st1 (Atomics.litImplLit rlit olit)) (fun b hb wl wr h1 h2 h3 h4 => ?_) s3
        have := (Am1.sat_litImplLit b rlit olit).1 (hb _ (by simp [addClause]))
        exact this (h2.2 (x - 1) rlit (by omega) l1)
      · exact d3 x hx
    · rw [if_neg hl0]
      have hlg : (st1.db.node l.id).isGeneral = false := hb1.full.1.notGeneral
      obtain ⟨llit, st2, e2, s2, l2, n2, -⟩ := define_spec st1 l.id (val - r / 2 - 1) .if_ hw1 hlg (by rw [hlen1]; omega)
      have loc2 := define_loc hw1 hlg (by rw [hlen1]; omega) e2
      have hw2 := s2.ref.wf hw1
      have hb2 := hb1.step s2.ref (n2 id hb.lLt)
      have hlen2 : ∀ j, (st2.db.node j).len = (st.db.node j).len := fun j => by rw [(s2.ref.node j).len, hlen1]
      rw [e2]
      simp only
      have l1' := l1.ref s2.ref
      have hlv : ∀ W b, StrictW st2.db W b → Clause.sat b (Atomics.cubeImplLit [rlit, llit] olit) := fun W b hW => by
        rw [sat_cubeImplLit]
        intro hr
        have a1 := l1'.level hW (hr rlit (by simp))
        have a2 := l2.level hW (hr llit (by simp))
        exact hlev hb2 W b hW (by omega) (by omega)
      have s3 : Step st2 (addClause st2 (Atomics.cubeImplLit [rlit, llit] olit)) := step_clause (fun b hb' => hlv _ b (hb'.levels hw2)) (by
        intro x hx
        simp only [Atomics.cubeImplLit, List.map_cons, List.map_nil, List.mem_append, List.mem_cons, List.not_mem_nil, or_false] at hx
        rcases hx with (rfl | rfl) | rfl
        · rw [Lit.var_neg]; exact l1'.varIn
        · rw [Lit.var_neg]; exact l2.varIn
        · exact Or.inr ⟨id, _, _, _, hout hb2, rfl⟩)
      have loc3 := lstep_clause (st := st2) hlv
      obtain ⟨st', e4, s4, loc4, n4, d4⟩ := ih (addClause st2 (Atomics.cubeImplLit [rlit, llit] olit)) hw2 hb2 (by
        show val ≤ (st2.db.node l.id).len + orm; rw [hlen2]; exact hlen) (fun x hx => by
        show 1 ≤ x ∧ x ≤ (st2.db.node p).len ∧ _
        rw [hlen2]; exact hvals x (by simp [hx]))
      refine ⟨st', e4, Step.trans hw s1 (Step.trans hw1 s2 (Step.trans hw2 s3 s4)),
        loc1.trans (loc2.trans (loc3.trans loc4 s4.ref) (s3.ref.trans s4.ref)) (s2.ref.trans (s3.ref.trans s4.ref)),
        fun j hj => (n4 j hj).trans ((n2 j (by have := hb.lLt; omega)).trans (n1 j (by have := hb.pLt; omega))), fun x hx => ?_⟩
      rcases List.mem_cons.1 hx with rfl | hx
      · refine ValDone.step (st := addClause st2 (Atomics.cubeImplLit [rlit, llit] olit)) (fun b hb wl wr h1 h2 h3 h4 => ?_) s4
        have := (sat_cubeImplLit b [rlit, llit] olit).1 (hb _ (by simp [addClause]))
        refine this fun y hy => ?_
        simp only [List.mem_cons, List.not_mem_nil, or_false] at hy
        rcases hy with rfl | rfl
        · exact h2.2 (x - 1) _ (by omega) l1'
        · exact h1.2 (val - x / 2 - 1) _ (by omega) l2
      · exact d4 x hx

theorem extendOlits_spec {id orm : Nat} {lits : List LitData} {l : NodeCon} {p : Nat} : ∀ (outs : List (Lit × Nat)) (st : St VM), st.db.WF →
    BucketAt st.db id lits l p →
    (∀ o ∈ outs, 1 ≤ o.2 ∧ o.2 ≤ (st.db.node l.id).len + orm ∧ ∃ s, lits[o.2 - 1]? = some (.lit o.1 (some s))) →
    ∃ st', extendOlits l (half p) orm outs st = some st' ∧ Step st st' ∧ LStep st st' ∧ (∀ j, id ≤ j → st'.db.node j = st.db.node j) ∧
      ∀ o ∈ outs, ∀ ρ, orm + 1 ≤ ρ → ρ ≤ o.2 → 2 * ρ ≤ (st.db.node p).len → ValDone st' l p o.1 o.2 (2 * ρ) := by
  intro outs
  induction outs with
  | nil => intro st _ _ _; exact ⟨st, rfl, Step.refl _, LStep.refl _, fun _ _ => rfl, by simp⟩
  | cons o outs ih =>
    intro st hw hb ho
    obtain ⟨olit, val⟩ := o
    obtain ⟨o1, o2, s, o3⟩ := ho (olit, val) (by simp)
    simp only at o1 o2 o3
    have hmv : (st.db.node p).maxVal = (st.db.node p).len := by
      cases hn : st.db.node p with
      | general => have := hb.pGen; rw [hn] at this; cases this
      | _ => rfl
    have hr : ∀ r, r ∈ (st.db.node (half p).id).valsRange ((half p).revMap (orm + 1)) ((half p).revMap (min (st.db.conLen (half p) + 1) val) + 1) ↔
        2 * (orm + 1) ≤ r ∧ r < 2 * min ((st.db.node p).len / 2 + 1) val + 1 ∧ 1 ≤ r ∧ r ≤ (st.db.node p).len := fun r => by
      rw [half_revMap, half_revMap, half_conLen]
      have := mem_valsRange (n := st.db.node p) hb.pGen (lo := 2 * (orm + 1)) (hi := 2 * min ((st.db.node p).len / 2 + 1) val + 1) (v := r)
      rw [hmv] at this
      exact this
    unfold extendOlits
    obtain ⟨st1, e1, s1, l1, n1, d1⟩ := extendVals_spec (orm := orm) o1 o3 _ st hw hb o2 (fun r hr' => by
      rw [hr r] at hr'
      omega)
    rw [e1]
    simp only
    have hb1 := hb.step s1.ref (n1 id (Nat.le_refl _))
    obtain ⟨st', e2, s2, l2, n2, d2⟩ := ih st1 (s1.ref.wf hw) hb1 (fun o h => by
      rw [(s1.ref.node l.id).len]; exact ho o (by simp [h]))
    refine ⟨st', e2, Step.trans hw s1 s2, l1.trans l2 s2.ref, fun j hj => (n2 j hj).trans (n1 j hj), fun o h ρ g1 g2 g3 => ?_⟩
    rcases List.mem_cons.1 h with rfl | h
    · exact (d1 (2 * ρ) ((hr _).2 (by simp only at g2; omega))).step s2
    · exact d2 o h ρ g1 g2 (by rw [(s1.ref.node p).len]; exact g3)

theorem toExtend_mem (orm : Nat) : ∀ (lits : List LitData) (idx : Nat) (o : Lit × Nat), o ∈ toExtend orm idx lits ↔
    ∃ k s, lits[k]? = some (.lit o.1 (some s)) ∧ s.hasIf = true ∧ o.2 = idx + k + 1 ∧ orm ≤ o.2 := by
  intro lits
  induction lits with
  | nil => intro idx o; simp [toExtend]
  | cons d ds ih =>
    intro idx o
    have key : ∀ (P : Prop), (P ↔ ∃ s, d = .lit o.1 (some s) ∧ s.hasIf = true ∧ o.2 = idx + 1 ∧ orm ≤ o.2) →
        ((P ∨ o ∈ toExtend orm (idx + 1) ds) ↔ ∃ k s, (d :: ds)[k]? = some (.lit o.1 (some s)) ∧ s.hasIf = true ∧ o.2 = idx + k + 1 ∧ orm ≤ o.2) := by
      intro P hP
      rw [hP, ih]
      constructor
      · rintro (⟨s, rfl, h2, h3, h4⟩ | ⟨k, s, h1, h2, h3, h4⟩)
        · exact ⟨0, s, by simp, h2, h3, h4⟩
        · exact ⟨k + 1, s, by simpa using h1, h2, by omega, h4⟩
      · rintro ⟨k, s, h1, h2, h3, h4⟩
        cases k with
        | zero => left; simp only [List.getElem?_cons_zero, Option.some.injEq] at h1; exact ⟨s, h1, h2, h3, h4⟩
        | succ k => right; exact ⟨k, s, by simpa using h1, h2, by omega, h4⟩
    cases d with
    | none =>
      show o ∈ toExtend orm (idx + 1) ds ↔ _
      have := key False ⟨False.elim, by rintro ⟨s, h, -⟩; cases h⟩
      rw [false_or] at this
      exact this
    | lit l s =>
      cases s with
      | none =>
        show o ∈ toExtend orm (idx + 1) ds ↔ _
        have := key False ⟨False.elim, by rintro ⟨s, h, -⟩; cases h⟩
        rw [false_or] at this
        exact this
      | some s =>
        rw [toExtend]
        by_cases hc : (s.hasIf && decide (orm ≤ idx + 1)) = true
        · rw [if_pos hc, List.mem_cons]
          refine key (o = (l, idx + 1)) ⟨?_, ?_⟩
          · rintro rfl
            simp only [Bool.and_eq_true, decide_eq_true_eq] at hc
            exact ⟨s, rfl, hc.1, rfl, hc.2⟩
          · rintro ⟨s', h, -, h3, -⟩
            cases h
            exact Prod.ext rfl h3
        · rw [if_neg hc]
          have := key False ⟨False.elim, by
            rintro ⟨s', h, h2, h3, h4⟩
            cases h
            apply hc
            simp only [Bool.and_eq_true, decide_eq_true_eq]
            exact ⟨h2, by omega⟩⟩
          rw [false_or] at this
          exact this

/-- The buckets whose outputs are to be extended. -/
def Todo (db : Db) (C : ClauseSet) : Nat → List (Nat × Nat) → Prop
  | _, [] => True
  | orm, x :: rest => (∃ lits l p, BucketAt db x.1 lits l p ∧ (∀ (k : Nat) lit s, lits[k]? = some (.lit lit (some s)) → k < x.2) ∧
      ((∃ (k : Nat) (lit : Lit) (s : Semantics), lits[k]? = some (.lit lit (some s))) → x.2 ≤ (db.node l.id).len + orm)) ∧
    LSound db C orm x.1 ∧ (∀ y ∈ rest, x.1 < y.1) ∧ Todo db C (x.2 / 2) rest

omit [LawfulVM VM] in
theorem Todo.step {st st' : St VM} (hs : Step st st') (hl : LStep st st') : ∀ {ids : List (Nat × Nat)} {orm : Nat}, Todo st.db st.cls orm ids →
    (∀ x ∈ ids, st'.db.node x.1 = st.db.node x.1) → Todo st'.db st'.cls orm ids := by
  intro ids
  induction ids with
  | nil => intro _ _ _; trivial
  | cons x ids ih =>
    rintro orm ⟨⟨lits, l, p, h1, h2, h3⟩, h4, h5, h6⟩ hn
    obtain ⟨new, e, -, hL⟩ := hl
    refine ⟨⟨lits, l, p, h1.step hs.ref (hn x (by simp)), h2, fun h => ?_⟩, ?_, h5, ih h6 fun y hy => hn y (by simp [hy])⟩
    · rw [(hs.ref.node l.id).len]; exact h3 h
    · rw [e]; exact hL _ _ _ h4

theorem extendBuckets_spec : ∀ (ids : List (Nat × Nat)) (orm : Nat) (st : St VM), st.db.WF → (∀ i, (st.db.node i).isGeneral = false) →
    (∀ W b, StrictW st.db W b → ClauseSet.sat b st.cls) → (∀ m i, i ∉ ids.map (·.1) → LSound st.db st.cls m i) → Todo st.db st.cls orm ids →
    ∃ st', extendBuckets orm ids st = some st' ∧ Step st st' ∧ LCore st'.db st'.cls := by
  intro ids
  induction ids with
  | nil => intro orm st hw hp hsat hS _; exact ⟨st, rfl, Step.refl _, hp, fun m i => hS m i (by simp), hsat⟩
  | cons x ids ih =>
    rintro orm st hw hp hsat hS ⟨⟨lits, l, p, hb, h2, h3⟩, h4, h5, h6⟩
    obtain ⟨id, oldLen⟩ := x
    simp only at hb h2 h3 h4 h5 h6
    obtain ⟨dp, nl, hn⟩ := hb.node
    unfold extendBuckets
    rw [hn]
    simp only
    have hout := toExtend_mem orm lits 0
    obtain ⟨st1, e1, s1, l1, n1, d1⟩ := extendOlits_spec (orm := orm) (toExtend orm 0 lits) st hw hb (fun o ho => by
      obtain ⟨k, s, g1, g2, g3, g4⟩ := (hout o).1 ho
      have := h2 k o.1 s g1
      have := h3 ⟨k, o.1, s, g1⟩
      exact ⟨by omega, by omega, s, by rw [show o.2 - 1 = k by omega]; exact g1⟩)
    rw [e1]
    simp only
    have l1' := l1
    obtain ⟨new, e, hs1, hL⟩ := l1'
    have hsat1 : ∀ W b, StrictW st1.db W b → ClauseSet.sat b st1.cls := fun W b hW => by
      rw [e, ClauseSet.sat_append]; exact ⟨hsat W b (hW.ref s1.ref), hs1 W b hW⟩
    have hb1 := hb.step s1.ref (n1 id (Nat.le_refl _))
    obtain ⟨st', e2, s2, l2⟩ := ih (oldLen / 2) st1 (s1.ref.wf hw) (fun i => by rw [(s1.ref.node i).isGeneral]; exact hp i) hsat1 (fun m i hi => by
      by_cases hid : i = id
      · subst hid
        have hold := hL _ _ _ h4
        rw [← e] at hold
        obtain ⟨dp, nl, hn1⟩ := hb1.node
        intro lc rc hsh b hb' wl wr w1 w2 _ k y hy hk
        have hsh' := hsh
        rw [hn1] at hsh
        cases hsh
        rw [half_map, FullCon.map hb1.full] at hk
        have e0 : (half p).id = p := rfl
        rw [e0] at w2
        rcases Nat.lt_or_ge orm (wr / 2) with hρ | hρ
        · rcases Nat.lt_or_ge orm (k + 1) with hv | hv
          · have hmem : (y, k + 1) ∈ toExtend orm 0 lits := (hout _).2 (by
              rcases hasLit_iff.1 hy with ⟨g1, -⟩ | ⟨s, -, g2, g3⟩
              · rw [hn1] at g1; cases g1
              · rw [hn1] at g2
                simp only [Node.outData, Option.map_eq_some_iff, Prod.mk.injEq] at g2
                obtain ⟨d, g4, -, rfl⟩ := g2
                exact ⟨k, s, g4, g3, by simp, by simp only; omega⟩)
            have hlen := w2.1
            rw [(s1.ref.node p).len] at hlen
            have := d1 _ hmem (min (wr / 2) (k + 1)) (by omega) (by simp only; omega) (by omega)
            exact this b hb' wl wr w1 w2 (by omega) (by simp only; omega)
          · exact hold l (half p) hsh' b hb' wl (2 * orm) w1 (w2.le (by omega)) (by rw [half_map]; omega) k y hy (by rw [half_map, FullCon.map hb1.full]; omega)
        · exact hold l (half p) hsh' b hb' wl wr w1 w2 (by rw [half_map]; omega) k y hy (by rw [half_map, FullCon.map hb1.full]; omega)
      · have := hL _ m i (hS m i (by simp only [List.map_cons, List.mem_cons, not_or]; exact ⟨hid, hi⟩))
        rw [e]; exact this) (Todo.step s1 l1 h6 fun y hy => n1 y.1 (Nat.le_of_lt (h5 y hy)))
    exact ⟨st', e2, Step.trans hw s1 s2, l2⟩

end Dpw
end RustSat
