import Verif.Lemmas.Att
import Verif.Lemmas.Encoding
import Verif.Lemmas.Am1
import Verif.Model.TotDb
/-
Relations between states of the totalizer database, invariants of output literals.
-/
namespace RustSat
namespace TotDb

/-- Output data may only gain a literal and semantics. -/
structure LitRef (d d' : LitData) : Prop where
  keep : ∀ l s, d = .lit l s → ∃ s', d' = .lit l s'
  hasIf : d.hasIf = true → d'.hasIf = true
  hasOnlyIf : d.hasOnlyIf = true → d'.hasOnlyIf = true

theorem LitRef.refl (d : LitData) : LitRef d d := ⟨fun _ s h => ⟨s, h⟩, id, id⟩

theorem LitRef.trans {a b c : LitData} (h1 : LitRef a b) (h2 : LitRef b c) : LitRef a c :=
  ⟨fun l s h => (h1.keep l s h).elim fun t ht => h2.keep l t ht,
    fun h => h2.hasIf (h1.hasIf h), fun h => h2.hasOnlyIf (h1.hasOnlyIf h)⟩

/-- Output data may only gain a literal; semantics may change arbitrarily. -/
def LitKeep (d d' : LitData) : Prop := ∀ l s, d = .lit l s → ∃ s', d' = .lit l s'

/-- Nodes that only differ in their output data, which are related by `R`. -/
def NodeRel (R : LitData → LitData → Prop) : Node → Node → Prop
  | .leaf l, .leaf l' => l = l'
  | .dummy, .dummy => True
  | .unit lits d nl l r, .unit lits' d' nl' l' r' =>
    d = d' ∧ nl = nl' ∧ l = l' ∧ r = r' ∧ lits'.length = lits.length ∧
      ∀ (i : Nat) x y, lits[i]? = some x → lits'[i]? = some y → R x y
  | .general lits d nl m l r, .general lits' d' nl' m' l' r' =>
    d = d' ∧ nl = nl' ∧ m = m' ∧ l = l' ∧ r = r' ∧ lits'.map (·.1) = lits.map (·.1) ∧
      ∀ (i : Nat) x y, lits[i]? = some x → lits'[i]? = some y → R x.2 y.2
  | _, _ => False

theorem NodeRel.refl {R : LitData → LitData → Prop} (hR : ∀ d, R d d) (n : Node) : NodeRel R n n := by
  cases n with
  | leaf => rfl
  | dummy => trivial
  | unit lits d nl l r =>
    exact ⟨rfl, rfl, rfl, rfl, rfl, fun i x y hx hy => by rw [hx] at hy; cases hy; exact hR x⟩
  | general lits d nl m l r =>
    exact ⟨rfl, rfl, rfl, rfl, rfl, rfl, fun i x y hx hy => by rw [hx] at hy; cases hy; exact hR x.2⟩

theorem NodeRel.mono {R S : LitData → LitData → Prop} (hRS : ∀ x y, R x y → S x y) {n n' : Node}
    (h : NodeRel R n n') : NodeRel S n n' := by
  cases n <;> cases n' <;> simp only [NodeRel] at h ⊢
  · exact h
  · obtain ⟨h1, h2, h3, h4, h5, h6⟩ := h
    exact ⟨h1, h2, h3, h4, h5, fun i x y hx hy => hRS _ _ (h6 i x y hx hy)⟩
  · obtain ⟨h1, h2, h3, h4, h5, h6, h7⟩ := h
    exact ⟨h1, h2, h3, h4, h5, h6, fun i x y hx hy => hRS _ _ (h7 i x y hx hy)⟩

theorem NodeRel.trans {R : LitData → LitData → Prop} (hR : ∀ x y z, R x y → R y z → R x z) {a b c : Node}
    (h1 : NodeRel R a b) (h2 : NodeRel R b c) : NodeRel R a c := by
  cases a <;> cases b <;> simp only [NodeRel] at h1 <;> cases c <;> simp only [NodeRel] at h2 ⊢
  · exact h1.trans h2
  · rename_i la _ _ _ _ lb _ _ _ _ lc _ _ _ _
    obtain ⟨p1, p2, p3, p4, p5, p6⟩ := h1
    obtain ⟨q1, q2, q3, q4, q5, q6⟩ := h2
    refine ⟨p1.trans q1, p2.trans q2, p3.trans q3, p4.trans q4, q5.trans p5, fun i x z hx hz => ?_⟩
    have hi : i < lb.length := by rw [p5]; exact (List.getElem?_eq_some_iff.1 hx).1
    exact hR _ _ _ (p6 i x _ hx (List.getElem?_eq_getElem hi)) (q6 i _ z (List.getElem?_eq_getElem hi) hz)
  · rename_i la _ _ _ _ _ lb _ _ _ _ _ lc _ _ _ _ _
    obtain ⟨p1, p2, p3, p4, p5, p6, p7⟩ := h1
    obtain ⟨q1, q2, q3, q4, q5, q6, q7⟩ := h2
    refine ⟨p1.trans q1, p2.trans q2, p3.trans q3, p4.trans q4, p5.trans q5, q6.trans p6, fun i x z hx hz => ?_⟩
    have hl : lb.length = la.length := by have := congrArg List.length p6; simpa using this
    have hi : i < lb.length := by rw [hl]; exact (List.getElem?_eq_some_iff.1 hx).1
    exact hR _ _ _ (p7 i x _ hx (List.getElem?_eq_getElem hi)) (q7 i _ z (List.getElem?_eq_getElem hi) hz)

theorem NodeRel.shape {R : LitData → LitData → Prop} {n n' : Node} (h : NodeRel R n n') : n'.shape = n.shape := by
  cases n <;> cases n' <;> simp only [NodeRel] at h
  · rw [h]
  · simp only [Node.shape]; rw [h.2.2.1, h.2.2.2.1]
  · simp only [Node.shape]; rw [h.2.2.2.1, h.2.2.2.2.1]
  · rfl

theorem NodeRel.len {R : LitData → LitData → Prop} {n n' : Node} (h : NodeRel R n n') : n'.len = n.len := by
  cases n <;> cases n' <;> simp only [NodeRel] at h
  · rfl
  · exact h.2.2.2.2.1
  · have := congrArg List.length h.2.2.2.2.2.1
    simpa [Node.len] using this
  · rfl

theorem NodeRel.maxVal {R : LitData → LitData → Prop} {n n' : Node} (h : NodeRel R n n') : n'.maxVal = n.maxVal := by
  cases n <;> cases n' <;> simp only [NodeRel] at h
  · rfl
  · exact h.2.2.2.2.1
  · exact h.2.2.1.symm
  · rfl

theorem NodeRel.isGeneral {R : LitData → LitData → Prop} {n n' : Node} (h : NodeRel R n n') :
    n'.isGeneral = n.isGeneral := by
  cases n <;> cases n' <;> simp only [NodeRel] at h <;> rfl

theorem NodeRel.valsFrom {R : LitData → LitData → Prop} {n n' : Node} (h : NodeRel R n n') (k : Nat) :
    n'.valsFrom k = n.valsFrom k := by
  cases n <;> cases n' <;> simp only [NodeRel] at h
  · rfl
  · simp only [Node.valsFrom]; rw [h.2.2.2.2.1]
  · simp only [Node.valsFrom]; rw [h.2.2.2.2.2.1]
  · rfl

theorem NodeRel.valsRange {R : LitData → LitData → Prop} {n n' : Node} (h : NodeRel R n n') (k m : Nat) :
    n'.valsRange k m = n.valsRange k m := by
  cases n <;> cases n' <;> simp only [NodeRel] at h
  · rfl
  · simp only [Node.valsRange]; rw [h.2.2.2.2.1]
  · simp only [Node.valsRange]; rw [h.2.2.2.2.2.1]
  · rfl

/-- Databases that only differ in output data. -/
structure DbRel (R : LitData → LitData → Prop) (db db' : Db) : Prop where
  len : db'.nodes.length = db.nodes.length
  lookup : db'.lookupLeaf = db.lookupLeaf
  dummy : db'.dummyId = db.dummyId
  node : ∀ i, NodeRel R (db.node i) (db'.node i)

/-- The database only gains output literals and semantics. -/
abbrev DbRef := DbRel LitRef

theorem DbRel.mono {R S : LitData → LitData → Prop} (hRS : ∀ x y, R x y → S x y) {db db' : Db}
    (h : DbRel R db db') : DbRel S db db' := ⟨h.len, h.lookup, h.dummy, fun i => (h.node i).mono hRS⟩

theorem DbRef.refl (db : Db) : DbRef db db := ⟨rfl, rfl, rfl, fun _ => NodeRel.refl LitRef.refl _⟩

theorem DbRef.trans {a b c : Db} (h1 : DbRef a b) (h2 : DbRef b c) : DbRef a c :=
  ⟨h2.len.trans h1.len, h2.lookup.trans h1.lookup, h2.dummy.trans h1.dummy,
    fun i => NodeRel.trans (R := LitRef) (fun _ _ _ h h' => LitRef.trans h h') (h1.node i) (h2.node i)⟩

section
variable {R : LitData → LitData → Prop} {db db' : Db}

theorem DbRel.shape (h : DbRel R db db') (i : Nat) : (db'.node i).shape = (db.node i).shape := (h.node i).shape

theorem DbRel.value (h : DbRel R db db') (hw : db.WF) (T : Lit → Bool) (i : Nat) :
    TotDb.value db' T i = TotDb.value db T i := (value_congr hw T fun j _ => (h.shape j).symm).symm

theorem DbRel.att (h : DbRel R db db') (hw : db.WF) {T : Lit → Bool} {i v : Nat} : Att db' T i v ↔ Att db T i v :=
  ⟨fun x => x.congr (n := i + 1) (db := db') (db' := db) (fun {i l r} hs => hw.children (by rw [← h.shape]; exact hs))
      (fun j _ => h.shape j) (Nat.lt_succ_self _),
    fun x => x.congr (n := i + 1) hw.children (fun j _ => (h.shape j).symm) (Nat.lt_succ_self _)⟩

theorem DbRel.conVal (h : DbRel R db db') (hw : db.WF) (T : Lit → Bool) (c : NodeCon) :
    TotDb.conVal db' T c = TotDb.conVal db T c := by unfold TotDb.conVal; rw [h.value hw]

theorem DbRel.conLen (h : DbRel R db db') (c : NodeCon) : db'.conLen c = db.conLen c := by
  unfold Db.conLen; rw [(h.node c.id).len]

theorem DbRel.conVals (h : DbRel R db db') (c : NodeCon) : TotDb.conVals db' c = TotDb.conVals db c := by
  unfold TotDb.conVals; rw [(h.node c.id).valsFrom]

theorem DbRel.unit (h : DbRel R db db') {c : NodeCon} (hc : UnitCon db c) : UnitCon db' c :=
  ⟨by rw [h.len]; exact hc.id, hc.wf, hc.mult, by rw [(h.node c.id).len]; exact hc.offset,
    by rw [(h.node c.id).isGeneral]; exact hc.notGeneral⟩

theorem DbRel.plain (h : DbRel R db db') {c : NodeCon} (hc : PlainCon db c) : PlainCon db' c :=
  ⟨by rw [h.len]; exact hc.id, hc.offset, hc.divisor, hc.mult, hc.limit⟩

theorem DbRel.wf (h : DbRel R db db') (hw : db.WF) : db'.WF := by
  refine ⟨fun i n hn => ?_, fun l id hl => ?_, fun id hd => ?_⟩
  · have hi : i < db'.nodes.length := (List.getElem?_eq_some_iff.1 hn).1
    have hi' : i < db.nodes.length := by rw [← h.len]; exact hi
    have e : db'.node i = n := Db.node_eq hn
    have hok := hw.nodes i _ (Db.getElem?_node hi')
    have hr := h.node i
    rw [e] at hr
    cases hx : db.node i with
    | leaf l => rw [hx] at hr; cases n <;> simp only [NodeRel] at hr; trivial
    | dummy => rw [hx] at hr; cases n <;> simp only [NodeRel] at hr; trivial
    | unit lits d nl l r =>
      rw [hx] at hr hok
      cases n <;> simp only [NodeRel] at hr
      obtain ⟨h1, h2, h3, h4, h5, h6⟩ := hr
      obtain ⟨o1, o2, o3, o4, o5⟩ := hok
      subst h3 h4
      exact ⟨o1, o2, h.unit o3, h.unit o4, by rw [h5, o5, h.conLen, h.conLen]⟩
    | general lits d nl m l r =>
      rw [hx] at hr hok
      cases n <;> simp only [NodeRel] at hr
      obtain ⟨h1, h2, h3, h4, h5, h6, h7⟩ := hr
      obtain ⟨o1, o2, o3, o4, o5, o6, o7⟩ := hok
      subst h3 h4 h5
      refine ⟨o1, o2, h.plain o3, h.plain o4, by rw [h6]; exact o5, ?_, by rw [h6]; exact o7⟩
      rw [h6, h.conVals, h.conVals]
      exact o6
  · rw [h.lookup] at hl
    have := hw.lookup l id hl
    have hid : id < db.nodes.length := (List.getElem?_eq_some_iff.1 this).1
    have hr := h.node id
    rw [Db.node_eq this] at hr
    rw [Db.getElem?_node (by rw [h.len]; exact hid)]
    cases hn : db'.node id <;> rw [hn] at hr <;> simp only [NodeRel] at hr
    rw [hr]
  · rw [h.dummy] at hd
    have := hw.dummy id hd
    have hid : id < db.nodes.length := (List.getElem?_eq_some_iff.1 this).1
    have hr := h.node id
    rw [Db.node_eq this] at hr
    rw [Db.getElem?_node (by rw [h.len]; exact hid)]
    cases hn : db'.node id <;> rw [hn] at hr <;> simp only [NodeRel] at hr

theorem DbRel.leaf (h : DbRel R db db') {i : Nat} {l : Lit} : db'.node i = .leaf l ↔ db.node i = .leaf l := by
  have hr := h.node i
  constructor
  · intro e
    rw [e] at hr
    cases hn : db.node i <;> rw [hn] at hr <;> simp only [NodeRel] at hr
    rw [hr]
  · intro e
    rw [e] at hr
    cases hn : db'.node i <;> rw [hn] at hr <;> simp only [NodeRel] at hr
    rw [hr]

theorem DbRel.dummy_iff (h : DbRel R db db') {i : Nat} : db'.node i = .dummy ↔ db.node i = .dummy := by
  have hr := h.node i
  constructor
  · intro e
    rw [e] at hr
    cases hn : db.node i <;> rw [hn] at hr <;> simp only [NodeRel] at hr
  · intro e
    rw [e] at hr
    cases hn : db'.node i <;> rw [hn] at hr <;> simp only [NodeRel] at hr
end

/-- The data of the output at a position, with the value it stands for. -/
def Node.outData : Node → Nat → Option (Nat × LitData)
  | .unit lits .., k => (lits[k]?).map fun d => (k + 1, d)
  | .general lits .., k => lits[k]?
  | _, _ => none

/-- Output `k` of node `i` stands for value `v` and has literal `l`. -/
def OutAt (db : Db) (i k v : Nat) (l : Lit) : Prop := ∃ s, (db.node i).outData k = some (v, .lit l s)

theorem NodeRel.outData_fwd {R : LitData → LitData → Prop} {n n' : Node} (h : NodeRel R n n') {k v : Nat} {d : LitData}
    (hd : n.outData k = some (v, d)) : ∃ d', n'.outData k = some (v, d') ∧ R d d' := by
  cases n <;> cases n' <;> simp only [NodeRel] at h
  · simp [Node.outData] at hd
  · rename_i la _ _ _ _ lb _ _ _ _
    simp only [Node.outData, Option.map_eq_some_iff] at hd ⊢
    obtain ⟨x, hx, he⟩ := hd
    obtain ⟨-, -, -, -, h5, h6⟩ := h
    cases he
    have hi : k < lb.length := by rw [h5]; exact (List.getElem?_eq_some_iff.1 hx).1
    exact ⟨_, ⟨_, List.getElem?_eq_getElem hi, rfl⟩, h6 k d _ hx (List.getElem?_eq_getElem hi)⟩
  · rename_i la _ _ _ _ _ lb _ _ _ _ _
    simp only [Node.outData] at hd ⊢
    obtain ⟨-, -, -, -, -, h6, h7⟩ := h
    have hl : lb.length = la.length := by have := congrArg List.length h6; simpa using this
    have hi : k < lb.length := by rw [hl]; exact (List.getElem?_eq_some_iff.1 hd).1
    have e1 : (lb.map (·.1))[k]? = some v := by rw [h6, List.getElem?_map, hd]; rfl
    rw [List.getElem?_map, List.getElem?_eq_getElem hi] at e1
    simp only [Option.map_some, Option.some.injEq] at e1
    refine ⟨lb[k].2, ?_, h7 k _ _ hd (List.getElem?_eq_getElem hi)⟩
    rw [List.getElem?_eq_getElem hi, ← e1]
  · simp [Node.outData] at hd

theorem NodeRel.outData_bwd {R : LitData → LitData → Prop} {n n' : Node} (h : NodeRel R n n') {k v : Nat} {d' : LitData}
    (hd : n'.outData k = some (v, d')) : ∃ d, n.outData k = some (v, d) ∧ R d d' := by
  have hsome : ∃ d, n.outData k = some d := by
    cases n <;> cases n' <;> simp only [NodeRel] at h
    · simp [Node.outData] at hd
    · rename_i la _ _ _ _ lb _ _ _ _
      simp only [Node.outData, Option.map_eq_some_iff] at hd ⊢
      obtain ⟨x, hx, he⟩ := hd
      have hi : k < la.length := by rw [← h.2.2.2.2.1]; exact (List.getElem?_eq_some_iff.1 hx).1
      exact ⟨_, _, List.getElem?_eq_getElem hi, rfl⟩
    · rename_i la _ _ _ _ _ lb _ _ _ _ _
      simp only [Node.outData] at hd ⊢
      have hl : lb.length = la.length := by have := congrArg List.length h.2.2.2.2.2.1; simpa using this
      have hi : k < la.length := by rw [← hl]; exact (List.getElem?_eq_some_iff.1 hd).1
      exact ⟨_, List.getElem?_eq_getElem hi⟩
    · simp [Node.outData] at hd
  obtain ⟨⟨v', d⟩, hdd⟩ := hsome
  obtain ⟨d2, h2, hr⟩ := h.outData_fwd hdd
  rw [h2] at hd
  cases hd
  exact ⟨d, hdd, hr⟩

theorem OutAt.ref {db db' : Db} {R : LitData → LitData → Prop} (hR : ∀ x y, R x y → LitKeep x y)
    (h : DbRel R db db') {i k v : Nat} {l : Lit} (ho : OutAt db i k v l) : OutAt db' i k v l := by
  obtain ⟨s, hs⟩ := ho
  obtain ⟨d', h1, h2⟩ := (h.node i).outData_fwd hs
  obtain ⟨s', hs'⟩ := hR _ _ h2 l s rfl
  exact ⟨s', by rw [h1, hs']⟩

theorem keep_of_ref {x y : LitData} (h : LitRef x y) : LitKeep x y := h.keep

/-- All output literals have the meaning "the value of the node reaches the value of the output". -/
def Strict (db : Db) (b : Asg) : Prop :=
  ∀ i k v l, OutAt db i k v l → (l.holds b = true ↔ v ≤ value db (trueLits b) i)

theorem Strict.of_ref {db db' : Db} {R : LitData → LitData → Prop} (hR : ∀ x y, R x y → LitKeep x y)
    (h : DbRel R db db') (hw : db.WF) {b : Asg} (hs : Strict db' b) : Strict db b := by
  intro i k v l ho
  rw [hs i k v l (ho.ref hR h), h.value hw]

/-- Outputs marked with "if" semantics follow from the clauses. For outputs of generalized totalizers: whenever
some occurrences of true literals have exactly this value. -/
def SoundIf (db : Db) (C : ClauseSet) : Prop :=
  ∀ i k v l s, (db.node i).outData k = some (v, .lit l s) → (LitData.lit l s).hasIf = true →
    ∀ b, ClauseSet.sat b C → ∀ T : Lit → Bool, (∀ x, T x = true → x.holds b = true) →
      (Att db T i v ∨ ((db.node i).isGeneral = false ∧ v ≤ value db T i)) → l.holds b = true

/-- Outputs marked with "only if" semantics are refuted by the clauses if the value is not reached. -/
def SoundOnlyIf (db : Db) (C : ClauseSet) : Prop :=
  ∀ i k v l s, (db.node i).outData k = some (v, .lit l s) → (LitData.lit l s).hasOnlyIf = true →
    ∀ b, ClauseSet.sat b C → l.holds b = true → v ≤ value db (trueLits b) i

theorem SoundIf.mono {db : Db} {C D : ClauseSet} (h : SoundIf db C) (hD : ∀ c ∈ C, c ∈ D) : SoundIf db D :=
  fun i k v l s h1 h2 b hb => h i k v l s h1 h2 b (fun c hc => hb c (hD c hc))

theorem SoundOnlyIf.mono {db : Db} {C D : ClauseSet} (h : SoundOnlyIf db C) (hD : ∀ c ∈ C, c ∈ D) :
    SoundOnlyIf db D :=
  fun i k v l s h1 h2 b hb => h i k v l s h1 h2 b (fun c hc => hb c (hD c hc))

/-- The output literals are fresh variables below `n`. -/
structure AuxOK (db : Db) (n : Nat) : Prop where
  leaf : ∀ i l, db.node i = .leaf l → l.var < n
  out : ∀ i k v l, OutAt db i k v l → l = Lit.pos l.var ∧ l.var < n
  disj : ∀ i k v l j l', OutAt db i k v l → db.node j = .leaf l' → l'.var ≠ l.var
  inj : ∀ i k v i' k' v' l, OutAt db i k v l → OutAt db i' k' v' l → i = i' ∧ k = k'

/-- The clauses mention only input literals and output literals of the database. -/
def VarsOK (db : Db) (C : ClauseSet) : Prop :=
  ∀ c ∈ C, ∀ x ∈ c, (∃ j l, db.node j = .leaf l ∧ l.var = x.var) ∨ ∃ i k v l, OutAt db i k v l ∧ l.var = x.var

theorem VarsOK.ref {db db' : Db} {R : LitData → LitData → Prop} (hR : ∀ x y, R x y → LitKeep x y)
    (h : DbRel R db db') {C : ClauseSet} (hv : VarsOK db C) : VarsOK db' C := by
  intro c hc x hx
  rcases hv c hc x hx with ⟨j, l, h1, h2⟩ | ⟨i, k, v, l, h1, h2⟩
  · exact Or.inl ⟨j, l, h.leaf.2 h1, h2⟩
  · exact Or.inr ⟨i, k, v, l, h1.ref hR h, h2⟩

/-- No node has a dummy as a child. -/
def NoDummy (db : Db) : Prop :=
  ∀ i l r, (db.node i).shape = .inner l r → db.node l.id ≠ .dummy ∧ db.node r.id ≠ .dummy

theorem NoDummy.ref {db db' : Db} {R : LitData → LitData → Prop} (h : DbRel R db db') (hn : NoDummy db) :
    NoDummy db' := by
  intro i l r hs
  rw [h.shape] at hs
  obtain ⟨h1, h2⟩ := hn i l r hs
  exact ⟨fun h' => h1 (h.dummy_iff.1 h'), fun h' => h2 (h.dummy_iff.1 h')⟩

variable {VM : Type} [ManageVars VM]

/-- What a (successful) call of a define function guarantees, for a well-formed database. -/
structure Step (st st' : St VM) : Prop where
  ref : DbRef st.db st'.db
  used : ManageVars.nUsed st.vm ≤ ManageVars.nUsed st'.vm
  fresh : ∀ i k v l, OutAt st'.db i k v l → OutAt st.db i k v l ∨
    (ManageVars.nUsed st.vm ≤ l.var ∧ l.var < ManageVars.nUsed st'.vm)
  aux : AuxOK st.db (ManageVars.nUsed st.vm) → AuxOK st'.db (ManageVars.nUsed st'.vm)
  cls : ∃ new, st'.cls = st.cls ++ new ∧
    (∀ C, SoundIf st.db C → SoundIf st'.db (C ++ new)) ∧
    (NoDummy st.db → ∀ C, SoundOnlyIf st.db C → SoundOnlyIf st'.db (C ++ new)) ∧
    (∀ b, Strict st'.db b → ClauseSet.sat b new) ∧ VarsOK st'.db new

theorem Step.refl (st : St VM) : Step st st :=
  ⟨DbRef.refl _, Nat.le_refl _, fun _ _ _ _ h => Or.inl h, id,
    ⟨[], by simp, fun C h => by simpa using h, fun _ C h => by simpa using h, fun b _ => by simp,
      by intro c hc; cases hc⟩⟩

/-- A step does not depend on the clauses collected before. -/
theorem Step.recol {db : Db} {vm : VM} {col : ClauseSet} {st : St VM} (h : Step ⟨db, vm, col⟩ st) (cls : ClauseSet) :
    ∃ new, st.cls = col ++ new ∧ Step ⟨db, vm, cls⟩ ⟨st.db, st.vm, cls ++ new⟩ := by
  obtain ⟨new, e, h1⟩ := h.cls
  exact ⟨new, e, h.ref, h.used, h.fresh, h.aux, new, rfl, h1⟩

theorem Step.trans {a b c : St VM} (hw : a.db.WF) (h1 : Step a b) (h2 : Step b c) : Step a c := by
  obtain ⟨new1, e1, f1, g1, s1, v1⟩ := h1.cls
  obtain ⟨new2, e2, f2, g2, s2, v2⟩ := h2.cls
  refine ⟨h1.ref.trans h2.ref, Nat.le_trans h1.used h2.used, fun i k v l ho => ?_, fun h => h2.aux (h1.aux h),
    ⟨new1 ++ new2, by rw [e2, e1, List.append_assoc], fun C h => ?_, fun hn C h => ?_, fun x hx => ?_, ?_⟩⟩
  · rcases h2.fresh i k v l ho with h | h
    · rcases h1.fresh i k v l h with h | h
      · exact Or.inl h
      · exact Or.inr ⟨h.1, Nat.lt_of_lt_of_le h.2 h2.used⟩
    · exact Or.inr ⟨Nat.le_trans h1.used h.1, h.2⟩
  · rw [← List.append_assoc]; exact f2 _ (f1 C h)
  · rw [← List.append_assoc]; exact g2 (hn.ref h1.ref) _ (g1 hn C h)
  · rw [ClauseSet.sat_append]
    exact ⟨s1 x (hx.of_ref (fun _ _ => keep_of_ref) h2.ref (h1.ref.wf hw)), s2 x hx⟩
  · intro cl hcl
    rcases List.mem_append.1 hcl with h | h
    · exact v1.ref (fun _ _ => keep_of_ref) h2.ref cl h
    · exact v2 cl h

/-- Values grow with the set of true literals. -/
theorem value_mono {db : Db} (hw : db.WF) {T T' : Lit → Bool} (hT : ∀ x, T x = true → T' x = true) :
    ∀ id, value db T id ≤ value db T' id := by
  intro id
  induction id using Nat.strongRecOn with
  | _ id ih =>
    rw [value_eq hw, value_eq hw]
    cases hs : (db.node id).shape with
    | dummy => exact Nat.le_refl _
    | leaf l =>
      simp only
      by_cases h : T l = true
      · rw [if_pos h, if_pos (hT l h)]
      · rw [if_neg h]; omega
    | inner l r =>
      obtain ⟨h1, h2⟩ := hw.children hs
      simp only
      exact Nat.add_le_add (l.map_mono (ih l.id h1)) (r.map_mono (ih r.id h2))

end TotDb
end RustSat
