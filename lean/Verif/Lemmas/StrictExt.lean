import Verif.Lemmas.CoverTrees
import Verif.Spec.AssignIter
/-
Extending assignments by strict semantics.
-/
namespace RustSat
namespace TotDb

theorem mem_olits {n : Node} {o : Lit} {v : Nat} : (o, v) ∈ n.olits ↔ ∃ k s, n.outData k = some (v, .lit o s) := by
  have hl : ∀ d : LitData, d.lit? = some o ↔ ∃ s, d = .lit o s := by
    intro d
    cases d with
    | none => simp [LitData.lit?]
    | lit l s => simp [LitData.lit?]
  cases n with
  | leaf => simp [Node.olits, Node.outData]
  | dummy => simp [Node.olits, Node.outData]
  | unit lits d nl l r =>
    simp only [Node.olits, Node.outData, List.mem_filterMap, Option.map_eq_some_iff]
    constructor
    · rintro ⟨⟨x, k⟩, hx, l', h1, h2⟩
      cases h2
      obtain ⟨s, hs⟩ := (hl x).1 h1
      exact ⟨k, s, x, List.mem_zipIdx_iff_getElem?.1 hx, by rw [hs]⟩
    · rintro ⟨k, s, x, h1, h2⟩
      cases h2
      exact ⟨(_, k), List.mem_zipIdx_iff_getElem?.2 h1, o, rfl, rfl⟩
  | general lits d nl m l r =>
    simp only [Node.olits, Node.outData, List.mem_filterMap, Option.map_eq_some_iff]
    constructor
    · rintro ⟨⟨w, x⟩, hx, l', h1, h2⟩
      cases h2
      obtain ⟨s, hs⟩ := (hl x).1 h1
      obtain ⟨k, hk⟩ := List.mem_iff_getElem?.1 hx
      exact ⟨k, s, by rw [hk, hs]⟩
    · rintro ⟨k, s, h1⟩
      exact ⟨_, List.mem_of_getElem? h1, o, rfl, rfl⟩

theorem OutAt.inner {db : Db} {i k v : Nat} {l : Lit} (h : OutAt db i k v l) : Inner db i := by
  obtain ⟨s, hs⟩ := h
  unfold Inner
  cases hn : db.node i with
  | leaf => rw [hn] at hs; simp [Node.outData] at hs
  | dummy => rw [hn] at hs; simp [Node.outData] at hs
  | unit _ _ _ l r => exact ⟨l, r, rfl⟩
  | general _ _ _ _ l r => exact ⟨l, r, rfl⟩

/-- The literal for an output under strict semantics. -/
def strictLit (db : Db) (as : Assignment) (i v : Nat) (o : Lit) : Lit := if v ≤ value db (asTrue as) i then o else o.neg

theorem strictlyExtend_spec {db : Db} (hw : db.WF) {root : Nat} (ht : Tree db (some root)) (hr : root < db.nodes.length) {as : Assignment}
    (hA : ∀ j l, db.node j = .leaf l → as.litValue l ≠ .dontCare) :
    ∃ out, Yields (fun m => db.strictlyExtend as m root) out ∧
      (∀ l, l ∈ out ↔ ∃ i k v o, OutAt db i k v o ∧ l = strictLit db as i v o) ∧
      Yields (fun m => db.nodeValue as m root) (value db (asTrue as) root) := by
  obtain ⟨it, ys, h1, h2, h3, h4, D, d0, d1, d2⟩ := valueIter_spec hw hA ht.real hr
  refine ⟨ys.flatMap (assignNode db), ⟨ys.length + 1, fun m hm => ?_⟩, fun l => ?_, ⟨ys.length + 1, fun m hm => ?_⟩⟩
  · simp only [Db.strictlyExtend, h1, Option.bind_some, h2 m hm, Option.map_some]
  · constructor
    · intro hl
      obtain ⟨y, hy, hl⟩ := List.mem_flatMap.1 hl
      obtain ⟨⟨o, v⟩, ho, e⟩ := List.mem_map.1 hl
      obtain ⟨k, s, hk⟩ := mem_olits.1 ho
      refine ⟨y.1, k, v, o, ⟨s, hk⟩, ?_⟩
      rw [← e, h3 y hy]
      rfl
    · rintro ⟨i, k, v, o, ho, rfl⟩
      obtain ⟨y, hy, e⟩ := d2 i (ht.below hw d0 d1 ho.inner) ho.inner
      obtain ⟨s, hs⟩ := ho
      refine List.mem_flatMap.2 ⟨y, hy, List.mem_map.2 ⟨(o, v), ?_, ?_⟩⟩
      · rw [e]; exact mem_olits.2 ⟨k, s, hs⟩
      · simp only [h3 y hy, e]; rfl
  · simp only [Db.nodeValue, h1, Option.bind_some, h2 m hm, h4, Option.map_some]

theorem holds_strictLit {db : Db} {as : Assignment} {a : Asg} {i v : Nat} {o : Lit} :
    (strictLit db as i v o).holds a = true ↔ (o.holds a = true ↔ v ≤ value db (asTrue as) i) := by
  unfold strictLit
  split
  · rename_i h; simp [h]
  · rename_i h; rw [Lit.holds_neg]; simp [h]

theorem agrees_value {db : Db} (hw : db.WF) {as : Assignment} {a : Asg} {ins : List Lit} (hl : ∀ j l, db.node j = .leaf l → l ∈ ins)
    (h : Agrees as a ins) (i : Nat) : value db (asTrue as) i = value db (trueLits a) i := by
  refine value_congr_leaves hw (fun j l hj => ?_) i
  have := h l (hl j l hj)
  unfold asTrue trueLits
  rw [this]
  cases l.holds a <;> simp [TernaryVal.ofBool]

/-- The total assignment with the values of an assignment. -/
def asgOf (as : Assignment) : Asg := fun v => decide (as.varValue v = .true)

theorem agrees_asgOf {as : Assignment} {ins : List Lit} (h : ∀ l ∈ ins, as.litValue l ≠ .dontCare) : Agrees as (asgOf as) ins := by
  intro l hl
  have := h l hl
  revert this
  unfold Assignment.litValue Lit.holds asgOf
  generalize as.varValue l.var = v
  cases v <;> cases l.isNeg <;> simp [TernaryVal.ofBool, TernaryVal.not]

/-- Without a root there are no nodes with children. -/
theorem Tree.noRoot {db : Db} (hw : db.WF) (ht : Tree db none) (i : Nat) : ¬ Inner db i := by
  have key : ∀ n i, db.nodes.length - i = n → ¬ Inner db i := by
    intro n
    induction n using Nat.strongRecOn with
    | ind n ih =>
      intro i hn hi
      rcases ht.cov i hi with ⟨j, l, r, hs, e⟩ | h
      · have hj : j < db.nodes.length := Inner.lt ⟨l, r, hs⟩
        obtain ⟨k1, k2⟩ := hw.children hs
        have hi' : i < j := by rcases e with e | e <;> omega
        exact ih (db.nodes.length - j) (by omega) j rfl ⟨l, r, hs⟩
      · cases h
  exact key _ i rfl

/-- What the extension of an assignment is. -/
structure StrictOut (db : Db) (cls : ClauseSet) (ins : List Lit) (own : List Nat) (as : Assignment) (out : List Lit) : Prop where
  own : ∀ l ∈ out, l.var ∈ own
  ex : ∃ a, Agrees as a ins ∧ cubeSat a out
  strict : ∀ a, Agrees as a ins → cubeSat a out → Strict db a
  vars : ∀ c ∈ cls, ∀ l ∈ c, (∃ x ∈ ins, x.var = l.var) ∨ ∃ o ∈ out, o.var = l.var

theorem strictOut {db : Db} {n : Nat} {cls : ClauseSet} {ins : List Lit} {own : List Nat} (h : Core db n cls ins own) {as : Assignment}
    (ha : ∀ l ∈ ins, as.litValue l ≠ .dontCare) {out : List Lit}
    (ho : ∀ l, l ∈ out ↔ ∃ i k v o, OutAt db i k v o ∧ l = strictLit db as i v o) : StrictOut db cls ins own as out := by
  have hstr : ∀ a, Agrees as a ins → (cubeSat a out ↔ Strict db a) := by
    intro a hag
    constructor
    · intro hc i k v l hl
      have := holds_strictLit.1 (hc _ ((ho _).2 ⟨i, k, v, l, hl, rfl⟩))
      rw [this, agrees_value h.wf h.leafIn hag]
    · intro hs l hl
      obtain ⟨i, k, v, o, h1, rfl⟩ := (ho l).1 hl
      rw [holds_strictLit, agrees_value h.wf h.leafIn hag]
      exact hs i k v o h1
  have hvar : ∀ i v o, (strictLit db as i v o).var = o.var := by
    intro i v o; unfold strictLit; split
    · rfl
    · exact Lit.var_neg o
  refine ⟨fun l hl => ?_, ?_, fun a h1 h2 => (hstr a h1).1 h2, fun c hc l hl => ?_⟩
  · obtain ⟨i, k, v, o, h1, rfl⟩ := (ho l).1 hl
    rw [hvar]
    exact h.outOwn i k v o h1
  · obtain ⟨b, h1, h2, h3, h4⟩ := h.complete (asgOf as)
    have hag : Agrees as b ins := fun l hl => by rw [h4 l hl]; exact agrees_asgOf ha l hl
    exact ⟨b, hag, (hstr b hag).2 h2⟩
  · rcases h.vars c hc l hl with ⟨j, l', h1, h2⟩ | ⟨i, k, v, l', h1, h2⟩
    · exact Or.inl ⟨l', h.leafIn _ _ h1, h2⟩
    · exact Or.inr ⟨_, (ho _).2 ⟨i, k, v, l', h1, rfl⟩, by rw [hvar]; exact h2⟩

end TotDb

/-- Under strict semantics the assumptions for a bound hold. -/
theorem Gte.Inv.enforced {t : Gte} {n : Nat} {cls : ClauseSet} {ins : List (Lit × Nat)} {own : List Nat} (h : t.Inv n cls ins own) {b : Nat}
    {A : List Lit} (hA : t.enforceUb b = .ok A) {m : Asg} (h2 : TotDb.Strict t.db m) (ha : wsum m ins ≤ b) : cubeSat m A := by
  intro x hx
  have hsum := ha
  rw [wsum_eq_wsumT, ← h.val] at hsum
  rcases h.enforceUb_cases b with ⟨hb, e⟩ | ⟨_, e, -⟩ | ⟨hb, -, A', e, hbuf, -, hA'⟩
  · rw [e] at hA; cases hA; cases hx
  · rw [e] at hA; cases hA
  · rw [e] at hA; cases hA
    rcases hA' x hx with ⟨y, hy, rfl⟩ | ⟨con, v, l, hr, hv, hl, rfl⟩
    · rw [Lit.holds_neg]
      cases hh : y.1.holds m with
      | false => rfl
      | true =>
        have := wsumT_mem_le (T := TotDb.trueLits m) hy hh
        have := (hbuf y hy).1
        omega
    · rw [Lit.holds_neg]
      cases hh : l.holds m with
      | false => rfl
      | true =>
        have hle := (hl.strict h.core.wf h2).1 hh
        have := con.map_mono hle
        unfold rootVal at hsum
        rw [hr] at hsum
        simp only [TotDb.conVal] at hsum
        omega

end RustSat
