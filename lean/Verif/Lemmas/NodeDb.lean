import Verif.Spec.TotDb
import Verif.Lemmas.NodeCon
/-
Invariant of the totalizer database and its preservation when nodes are added.
-/
namespace RustSat
namespace TotDb

/-- A connection transmitting all values, weighted. -/
structure PlainCon (db : Db) (c : NodeCon) : Prop where
  id : c.id < db.nodes.length
  offset : c.offset = 0
  divisor : c.divisor = 1
  mult : 0 < c.multiplier
  limit : c.lenLimit = none

/-- An unweighted connection to a node with consecutive values. -/
structure UnitCon (db : Db) (c : NodeCon) : Prop where
  id : c.id < db.nodes.length
  wf : c.WF
  mult : c.multiplier = 1
  offset : c.offset ≤ (db.node c.id).len
  notGeneral : (db.node c.id).isGeneral = false

/-- The invariant of one node at a given position. -/
def NodeOK (db : Db) (i : Nat) : Node → Prop
  | .leaf _ => True
  | .dummy => True
  | .unit lits _ _ l r =>
    l.id < i ∧ r.id < i ∧ UnitCon db l ∧ UnitCon db r ∧ lits.length = db.conLen l + db.conLen r
  | .general lits _ _ m l r =>
    l.id < i ∧ r.id < i ∧ PlainCon db l ∧ PlainCon db r ∧ (lits.map (·.1)).Pairwise (· < ·) ∧
    (∀ v, v ∈ lits.map (·.1) ↔ v ∈ conVals db l ∨ v ∈ conVals db r ∨
      ∃ x ∈ conVals db l, ∃ y ∈ conVals db r, v = x + y) ∧ m = lastVal (lits.map (·.1))

/-- The invariant of the database. -/
structure Db.WF (db : Db) : Prop where
  nodes : ∀ i n, db.nodes[i]? = some n → NodeOK db i n
  lookup : ∀ l id, db.lookupLeaf.lookup l = some id → db.nodes[id]? = some (.leaf l)
  dummy : ∀ id, db.dummyId = some id → db.nodes[id]? = some .dummy

/-- What the value of a node depends on. -/
inductive Shape where
  | leaf (l : Lit)
  | inner (l r : NodeCon)
  | dummy
deriving DecidableEq

/-- The shape of a node. -/
def Node.shape : Node → Shape
  | .leaf l => .leaf l
  | .unit _ _ _ l r => .inner l r
  | .general _ _ _ _ l r => .inner l r
  | .dummy => .dummy

theorem valueF_succ (db : Db) (T : Lit → Bool) (fuel id : Nat) :
    valueF db T (fuel + 1) id = match (db.node id).shape with
      | .leaf l => if T l then 1 else 0
      | .inner l r => l.map (valueF db T fuel l.id) + r.map (valueF db T fuel r.id)
      | .dummy => 0 := by
  rw [valueF]
  cases db.node id <;> rfl

theorem Db.node_eq {db : Db} {i : Nat} {n : Node} (h : db.nodes[i]? = some n) : db.node i = n := by
  unfold Db.node; rw [List.getD_eq_getElem?_getD, h]; rfl

theorem Db.getElem?_node {db : Db} {i : Nat} (h : i < db.nodes.length) : db.nodes[i]? = some (db.node i) := by
  unfold Db.node; rw [List.getD_eq_getElem?_getD, List.getElem?_eq_getElem h]; rfl

theorem Db.node_out {db : Db} {i : Nat} (h : db.nodes.length ≤ i) : db.node i = .dummy := by
  unfold Db.node; rw [List.getD_eq_getElem?_getD, List.getElem?_eq_none h]; rfl

/-- The children of a node have smaller ids. -/
theorem Db.WF.children {db : Db} (h : db.WF) {id : Nat} {l r : NodeCon} (hs : (db.node id).shape = .inner l r) :
    l.id < id ∧ r.id < id := by
  rcases Nat.lt_or_ge id db.nodes.length with hid | hid
  · have hn := h.nodes id _ (Db.getElem?_node hid)
    cases hx : db.node id with
    | leaf => rw [hx] at hs; cases hs
    | dummy => rw [hx] at hs; cases hs
    | unit _ _ _ a b => rw [hx] at hs hn; cases hs; exact ⟨hn.1, hn.2.1⟩
    | general _ _ _ _ a b => rw [hx] at hs hn; cases hs; exact ⟨hn.1, hn.2.1⟩
  · rw [Db.node_out hid] at hs; cases hs

/-- Values only depend on the shapes of the nodes below. -/
theorem valueF_congr {db db' : Db} (h : db.WF) (T : Lit → Bool) (n : Nat)
    (hs : ∀ j, j < n → (db.node j).shape = (db'.node j).shape) :
    ∀ fuel id, id < n → valueF db T fuel id = valueF db' T fuel id := by
  intro fuel
  induction fuel with
  | zero => intro id _; rfl
  | succ fuel ih =>
    intro id hid
    rw [valueF_succ, valueF_succ, ← hs id hid]
    cases hx : (db.node id).shape with
    | leaf l => rfl
    | dummy => rfl
    | inner l r =>
      obtain ⟨hl, hr⟩ := h.children hx
      simp only
      rw [ih l.id (by omega), ih r.id (by omega)]

theorem valueF_fuel {db : Db} (h : db.WF) (T : Lit → Bool) :
    ∀ fuel id, id < fuel → valueF db T fuel id = value db T id := by
  have key : ∀ f1 f2 id, id < f1 → id < f2 → valueF db T f1 id = valueF db T f2 id := by
    intro f1
    induction f1 with
    | zero => intro f2 id h1; omega
    | succ f1 ih =>
      intro f2 id h1 h2
      cases f2 with
      | zero => omega
      | succ f2 =>
        rw [valueF_succ, valueF_succ]
        cases hx : (db.node id).shape with
        | leaf l => rfl
        | dummy => rfl
        | inner l r =>
          obtain ⟨hl, hr⟩ := h.children hx
          simp only
          rw [ih f2 l.id (by omega) (by omega), ih f2 r.id (by omega) (by omega)]
  intro fuel id hf
  exact key fuel (id + 1) id hf (by omega)

/-- The recursive equation of values. -/
theorem value_eq {db : Db} (h : db.WF) (T : Lit → Bool) (id : Nat) :
    value db T id = match (db.node id).shape with
      | .leaf l => if T l then 1 else 0
      | .inner l r => conVal db T l + conVal db T r
      | .dummy => 0 := by
  unfold value
  rw [valueF_succ]
  cases hx : (db.node id).shape with
  | leaf l => rfl
  | dummy => rfl
  | inner l r =>
    obtain ⟨hl, hr⟩ := h.children hx
    simp only
    rw [valueF_fuel h T id l.id hl, valueF_fuel h T id r.id hr]
    rfl

theorem value_congr {db db' : Db} (h : db.WF) (T : Lit → Bool) {id : Nat}
    (hs : ∀ j, j ≤ id → (db.node j).shape = (db'.node j).shape) : value db T id = value db' T id :=
  valueF_congr h T (id + 1) (fun j hj => hs j (by omega)) (id + 1) id (by omega)

theorem conVal_congr {db db' : Db} (h : db.WF) (T : Lit → Bool) {c : NodeCon}
    (hs : ∀ j, j ≤ c.id → (db.node j).shape = (db'.node j).shape) : conVal db T c = conVal db' T c := by
  unfold conVal; rw [value_congr h T hs]

/-- A node without output literals so far. -/
def Node.blank : Node → Prop
  | .leaf _ => True
  | .dummy => True
  | .unit lits .. => ∀ d ∈ lits, d = LitData.none
  | .general lits .. => ∀ d ∈ lits, d.2 = LitData.none

/-- `db'` extends `db` by blank nodes; new leaves have their literals in `L`; a new dummy node is only allowed if
`dm` holds. -/
def ExtD (dm : Prop) (L : List Lit) (db db' : Db) : Prop :=
  ∃ s, db'.nodes = db.nodes ++ s ∧ (∀ n ∈ s, n.blank) ∧ (∀ l, Node.leaf l ∈ s → l ∈ L) ∧ (Node.dummy ∈ s → dm)

/-- Extension without dummy nodes. -/
abbrev Ext := ExtD False

theorem ExtD.refl (dm : Prop) (L : List Lit) (db : Db) : ExtD dm L db db := ⟨[], by simp, by simp, by simp, by simp⟩

theorem Ext.refl (L : List Lit) (db : Db) : Ext L db db := ExtD.refl False L db

theorem ExtD.trans {dm : Prop} {L : List Lit} {a b c : Db} (h1 : ExtD dm L a b) (h2 : ExtD dm L b c) : ExtD dm L a c := by
  obtain ⟨s, hs, hb, hl, hd⟩ := h1
  obtain ⟨t, ht, hb', hl', hd'⟩ := h2
  refine ⟨s ++ t, by rw [ht, hs, List.append_assoc], fun n hn => ?_, fun l hl2 => ?_,
    fun h => (List.mem_append.1 h).elim hd hd'⟩
  · rcases List.mem_append.1 hn with h | h
    · exact hb n h
    · exact hb' n h
  · rcases List.mem_append.1 hl2 with h | h
    · exact hl l h
    · exact hl' l h

theorem ExtD.mono {dm : Prop} {L L' : List Lit} {a b : Db} (h : ExtD dm L a b) (hL : ∀ l ∈ L, l ∈ L') : ExtD dm L' a b := by
  obtain ⟨s, hs, hb, hl, hd⟩ := h
  exact ⟨s, hs, hb, fun l h => hL l (hl l h), hd⟩

theorem ExtD.imp {dm dm' : Prop} {L : List Lit} {a b : Db} (h : ExtD dm L a b) (hd : dm → dm') : ExtD dm' L a b := by
  obtain ⟨s, hs, hb, hl, h1⟩ := h
  exact ⟨s, hs, hb, hl, fun h => hd (h1 h)⟩

theorem ExtD.weaken {dm : Prop} {L : List Lit} {a b : Db} (h : Ext L a b) : ExtD dm L a b := by
  obtain ⟨s, hs, hb, hl, hd⟩ := h
  exact ⟨s, hs, hb, hl, fun h => (hd h).elim⟩

theorem ExtD.len {dm : Prop} {L : List Lit} {a b : Db} (h : ExtD dm L a b) : a.nodes.length ≤ b.nodes.length := by
  obtain ⟨s, hs, _⟩ := h
  rw [hs]; simp

theorem ExtD.node {dm : Prop} {L : List Lit} {a b : Db} (h : ExtD dm L a b) {i : Nat} (hi : i < a.nodes.length) :
    b.node i = a.node i := by
  obtain ⟨s, hs, _⟩ := h
  unfold Db.node
  rw [List.getD_eq_getElem?_getD, List.getD_eq_getElem?_getD, hs, List.getElem?_append_left hi]

theorem ExtD.value {dm : Prop} {L : List Lit} {a b : Db} (h : ExtD dm L a b) (hw : a.WF) (T : Lit → Bool) {i : Nat}
    (hi : i < a.nodes.length) : TotDb.value b T i = TotDb.value a T i :=
  (value_congr hw T fun j hj => by rw [h.node (by omega)]).symm

theorem ExtD.conVal {dm : Prop} {L : List Lit} {a b : Db} (h : ExtD dm L a b) (hw : a.WF) (T : Lit → Bool) {c : NodeCon}
    (hi : c.id < a.nodes.length) : TotDb.conVal b T c = TotDb.conVal a T c := by
  unfold TotDb.conVal; rw [h.value hw T hi]

theorem ExtD.plain {dm : Prop} {L : List Lit} {a b : Db} (h : ExtD dm L a b) {c : NodeCon} (hc : PlainCon a c) : PlainCon b c :=
  ⟨Nat.lt_of_lt_of_le hc.id h.len, hc.offset, hc.divisor, hc.mult, hc.limit⟩

theorem ExtD.unit {dm : Prop} {L : List Lit} {a b : Db} (h : ExtD dm L a b) {c : NodeCon} (hc : UnitCon a c) : UnitCon b c :=
  ⟨Nat.lt_of_lt_of_le hc.id h.len, hc.wf, hc.mult, by rw [h.node hc.id]; exact hc.offset,
    by rw [h.node hc.id]; exact hc.notGeneral⟩

theorem ExtD.conLen {dm : Prop} {L : List Lit} {a b : Db} (h : ExtD dm L a b) {c : NodeCon} (hi : c.id < a.nodes.length) :
    b.conLen c = a.conLen c := by unfold Db.conLen; rw [h.node hi]

theorem ExtD.conVals {dm : Prop} {L : List Lit} {a b : Db} (h : ExtD dm L a b) {c : NodeCon} (hi : c.id < a.nodes.length) :
    TotDb.conVals b c = TotDb.conVals a c := by unfold TotDb.conVals; rw [h.node hi]

theorem ExtD.nodeOK {dm : Prop} {L : List Lit} {a b : Db} (h : ExtD dm L a b) {i : Nat} {n : Node} (hn : NodeOK a i n) :
    NodeOK b i n := by
  cases n with
  | leaf => trivial
  | dummy => trivial
  | unit lits d nl l r =>
    obtain ⟨h1, h2, h3, h4, h5⟩ := hn
    exact ⟨h1, h2, h.unit h3, h.unit h4, by rw [h.conLen h3.id, h.conLen h4.id]; exact h5⟩
  | general lits d nl m l r =>
    obtain ⟨h1, h2, h3, h4, h5, h6, h7⟩ := hn
    refine ⟨h1, h2, h.plain h3, h.plain h4, h5, ?_, h7⟩
    rw [h.conVals h3.id, h.conVals h4.id]; exact h6

/-- Pushing a node preserves the invariant if the new node is fine. -/
theorem WF_push {db : Db} (hw : db.WF) {n : Node} (hb : n.blank) {lk : List (Lit × Nat)} {dm : Option Nat}
    (hlk : ∀ l id, lk.lookup l = some id → (db.nodes ++ [n])[id]? = some (.leaf l))
    (hdm : ∀ id, dm = some id → (db.nodes ++ [n])[id]? = some .dummy)
    (hn : NodeOK ⟨db.nodes ++ [n], lk, dm⟩ db.nodes.length n) :
    (⟨db.nodes ++ [n], lk, dm⟩ : Db).WF := by
  refine ⟨fun i m hi => ?_, hlk, hdm⟩
  have hext : ExtD True (match n with | .leaf l => [l] | _ => []) db ⟨db.nodes ++ [n], lk, dm⟩ :=
    ⟨[n], rfl, by simpa using hb, by intro l hl; simp only [List.mem_singleton] at hl; subst hl; simp, fun _ => trivial⟩
  rcases Nat.lt_or_ge i db.nodes.length with h | h
  · simp only at hi
    rw [List.getElem?_append_left h] at hi
    exact hext.nodeOK (hw.nodes i m hi)
  · simp only at hi
    rw [List.getElem?_append_right h] at hi
    have : i = db.nodes.length := by
      rcases Nat.eq_or_lt_of_le h with h' | h'
      · exact h'.symm
      · rw [List.getElem?_eq_none (by simp; omega)] at hi; cases hi
    subst this
    simp only [Nat.sub_self, List.getElem?_cons_zero, Option.some.injEq] at hi
    subst hi
    exact hn

theorem getElem?_append_of_some {α : Type} {l s : List α} {i : Nat} {x : α} (h : l[i]? = some x) :
    (l ++ s)[i]? = some x := by
  rw [List.getElem?_append_left (List.getElem?_eq_some_iff.1 h).1]; exact h

/-- Inserting a leaf. -/
theorem insert_leaf {db : Db} (hw : db.WF) (l : Lit) :
    let r := db.insert (.leaf l)
    r.2.WF ∧ Ext [l] db r.2 ∧ r.2.node r.1 = .leaf l ∧ r.1 < r.2.nodes.length := by
  simp only [Db.insert]
  cases h : db.lookupLeaf.lookup l with
  | some id =>
    have := hw.lookup l id h
    exact ⟨hw, Ext.refl _ _, Db.node_eq this, (List.getElem?_eq_some_iff.1 this).1⟩
  | none =>
    refine ⟨WF_push (n := .leaf l) hw trivial ?_ ?_ trivial, ⟨[.leaf l], rfl, by simp [Node.blank], by simp, by simp⟩, ?_, by simp⟩
    · intro l' id hl
      rw [List.lookup_cons] at hl
      by_cases hll : l' = l
      · subst hll
        simp only [BEq.rfl] at hl
        cases hl
        simp
      · have : (l' == l) = false := by simpa using hll
        rw [this] at hl
        exact getElem?_append_of_some (hw.lookup l' id hl)
    · intro id hid
      exact getElem?_append_of_some (hw.dummy id hid)
    · apply Db.node_eq; simp

/-- Inserting an internal node. -/
theorem insert_inner {db : Db} (hw : db.WF) {n : Node} (hi : n.shape ≠ .dummy) (hl : ∀ l, n ≠ .leaf l)
    (hb : n.blank) (hn : NodeOK db db.nodes.length n) :
    let r := db.insert n
    r.2.WF ∧ Ext [] db r.2 ∧ r.2.node r.1 = n ∧ r.1 = db.nodes.length ∧ r.1 < r.2.nodes.length := by
  have hr : db.insert n = (db.nodes.length, { db with nodes := db.nodes ++ [n] }) := by
    unfold Db.insert
    cases n with
    | leaf l => exact absurd rfl (hl l)
    | dummy => exact absurd rfl hi
    | unit => rfl
    | general => rfl
  have hext : Ext [] db { db with nodes := db.nodes ++ [n] } :=
    ⟨[n], rfl, by simpa using hb, by intro l h; simp only [List.mem_singleton] at h; exact absurd h.symm (hl l),
      by intro h; simp only [List.mem_singleton] at h; exact hi (by rw [← h]; rfl)⟩
  simp only [hr]
  refine ⟨WF_push hw hb ?_ ?_ (hext.nodeOK hn), hext, ?_, trivial, by simp⟩
  · intro l id h; exact getElem?_append_of_some (hw.lookup l id h)
  · intro id h; exact getElem?_append_of_some (hw.dummy id h)
  · apply Db.node_eq; simp

end TotDb
end RustSat
