import Verif.Model.Drain
import Verif.Spec.Drain
import Verif.Lemmas.TotDb
/-
Lemmas about removing nodes from a database.
-/
namespace RustSat
namespace TotDb

/-- Outside of the removed range. -/
def Outside (a b i : Nat) : Prop := i < a ∨ b ≤ i

theorem inRange_iff {a b i : Nat} : inRange a b i = true ↔ a ≤ i ∧ i < b := by simp [inRange]

theorem shiftId_eq {a b i : Nat} (hab : a ≤ b) (h : Outside a b i) : shiftId a b i = newId a b i := by
  unfold shiftId newId
  rcases h with h | h
  · rw [if_neg (by omega), if_pos h]
  · rw [if_pos h, if_neg (by omega)]

theorem newId_lt {a b i j : Nat} (hab : a ≤ b) (hi : Outside a b i) (hj : Outside a b j) (h : i < j) : newId a b i < newId a b j := by
  unfold newId
  unfold Outside at hi hj
  by_cases h1 : i < a
  · rw [if_pos h1]
    by_cases h2 : j < a
    · rw [if_pos h2]; exact h
    · rw [if_neg h2]; omega
  · rw [if_neg h1, if_neg (by omega)]; omega

theorem outside_of_not {a b i : Nat} (h : inRange a b i ≠ true) : Outside a b i := by
  rw [Ne, inRange_iff] at h; unfold Outside; omega

/-- One node: either it is renamed and references nothing in the range, or it references the reported node. -/
theorem Node.drain_spec {a b : Nat} (hab : a ≤ b) (n : Node) :
    (n.drain a b = .ok (n.withIds (newId a b)) ∧ ∀ c ∈ n.childIds, Outside a b c) ∨
    ∃ c, n.drain a b = .error c ∧ c ∈ n.childIds ∧ a ≤ c ∧ c < b := by
  have key : ∀ l r : NodeCon, (drainCons a b l r = .ok ({ l with id := newId a b l.id }, { r with id := newId a b r.id }) ∧
      ∀ c ∈ [l.id, r.id], Outside a b c) ∨ ∃ c, drainCons a b l r = .error c ∧ c ∈ [l.id, r.id] ∧ a ≤ c ∧ c < b := by
    intro l r
    unfold drainCons
    by_cases h1 : inRange a b l.id = true
    · rw [if_pos h1]; exact Or.inr ⟨_, rfl, by simp, inRange_iff.1 h1⟩
    · rw [if_neg h1]
      by_cases h2 : inRange a b r.id = true
      · rw [if_pos h2]; exact Or.inr ⟨_, rfl, by simp, inRange_iff.1 h2⟩
      · rw [if_neg h2]
        refine Or.inl ⟨?_, ?_⟩
        · rw [shiftId_eq hab (outside_of_not h1), shiftId_eq hab (outside_of_not h2)]
        · intro c hc
          simp only [List.mem_cons, List.not_mem_nil, or_false] at hc
          rcases hc with rfl | rfl
          · exact outside_of_not h1
          · exact outside_of_not h2
  cases n with
  | leaf l => exact Or.inl ⟨rfl, fun c hc => by cases hc⟩
  | dummy => exact Or.inl ⟨rfl, fun c hc => by cases hc⟩
  | unit lits d n l r =>
    rcases key l r with ⟨e, h⟩ | ⟨c, e, h⟩
    · exact Or.inl ⟨by simp only [Node.drain, e, Except.map, Node.withIds], h⟩
    · exact Or.inr ⟨c, by simp only [Node.drain, e, Except.map, Node.withIds], h⟩
  | general lits d n m l r =>
    rcases key l r with ⟨e, h⟩ | ⟨c, e, h⟩
    · exact Or.inl ⟨by simp only [Node.drain, e, Except.map, Node.withIds], h⟩
    · exact Or.inr ⟨c, by simp only [Node.drain, e, Except.map, Node.withIds], h⟩

/-- The loop: either all nodes are renamed, or the first node with a reference is reported. -/
theorem drainFrom_spec {a b : Nat} (hab : a ≤ b) : ∀ (ns : List Node) (idx : Nat),
    (drainFrom a b idx ns = (ns.map (Node.withIds (newId a b)), none) ∧ ∀ n ∈ ns, ∀ c ∈ n.childIds, Outside a b c) ∨
    ∃ i c n ns', drainFrom a b idx ns = (ns', some (idx + i, c)) ∧ ns[i]? = some n ∧ c ∈ n.childIds ∧ a ≤ c ∧ c < b ∧
      ∀ j < i, ∀ m, ns[j]? = some m → ∀ c ∈ m.childIds, Outside a b c
  | [], idx => Or.inl ⟨rfl, fun n hn => by cases hn⟩
  | n :: ns, idx => by
    rcases n.drain_spec hab with ⟨e, h⟩ | ⟨c, e, h1, h2, h3⟩
    · rcases drainFrom_spec hab ns (idx + 1) with ⟨e', h'⟩ | ⟨i, c, m, ns', e', h1, h2, h3, h4, h5⟩
      · refine Or.inl ⟨by unfold drainFrom; rw [e, e']; rfl, fun m hm => ?_⟩
        rcases List.mem_cons.1 hm with rfl | hm
        · exact h
        · exact h' m hm
      · refine Or.inr ⟨i + 1, c, m, _, by unfold drainFrom; rw [e, e']; simp only [show idx + 1 + i = idx + (i + 1) by omega]; exact Prod.ext rfl rfl, by simpa using h1, h2, h3, h4, ?_⟩
        intro j hj m' hm'
        cases j with
        | zero => simp only [List.getElem?_cons_zero, Option.some.injEq] at hm'; subst hm'; exact h
        | succ j => exact h5 j (by omega) m' (by simpa using hm')
    · exact Or.inr ⟨0, c, n, n :: ns, by unfold drainFrom; rw [e]; rfl, rfl, h1, h2, h3, fun j hj => by omega⟩

theorem drainLookup_spec {a b : Nat} (m : List (Lit × Nat)) (l : Lit) :
    (drainLookup a b m).lookup l = (m.lookup l).bind fun id => if inRange a b id then none else some (shiftId a b id) := by
  unfold drainLookup
  have key : ∀ (p : Lit → Bool) (k : List (Lit × Nat)), ((k.filter fun x => p x.1).map fun x => (x.1, shiftId a b x.2)).lookup l =
      if p l then (k.lookup l).map (shiftId a b) else none := by
    intro p k
    induction k with
    | nil => simp
    | cons x k ih =>
      obtain ⟨y, v⟩ := x
      by_cases hy : y = l
      · subst hy
        by_cases hp : p y = true
        · simp [List.filter_cons, hp]
        · simp only [Bool.not_eq_true] at hp
          simp only [List.filter_cons, hp] at ih ⊢
          simpa using ih
      · have hne : (l == y) = false := by simp [Ne.symm hy]
        by_cases hp : p y = true
        · simp only [List.filter_cons, hp, if_true, List.map_cons, List.lookup_cons, hne]; exact ih
        · simp only [Bool.not_eq_true] at hp
          simp only [List.filter_cons, hp, List.lookup_cons, hne]; simpa using ih
  rw [key (fun x => (m.lookup x).any fun id => !inRange a b id) m]
  cases h : m.lookup l with
  | none => simp
  | some id => simp only [Option.map_some, Option.bind_some]; cases hx : inRange a b id <;> simp [hx]

/-- The database after nodes were removed. -/
structure Removed (db db' : Db) (a b : Nat) : Prop where
  ab : a < b
  len : b ≤ db.nodes.length
  len' : db'.nodes.length = db.nodes.length - (b - a)
  node : ∀ i, Outside a b i → db'.node (newId a b i) = (db.node i).withIds (newId a b)
  child : ∀ i, Outside a b i → ∀ c ∈ (db.node i).childIds, Outside a b c ∧ c < i
  lookup : ∀ l, db'.lookupLeaf.lookup l = (db.lookupLeaf.lookup l).bind fun id => if inRange a b id then none else some (newId a b id)
  dummyId : db'.dummyId = db.dummyId

theorem Db.WF.childLt {db : Db} (h : db.WF) (i : Nat) : ∀ c ∈ (db.node i).childIds, c < i := by
  intro c hc
  cases hn : db.node i with
  | leaf l => rw [hn] at hc; cases hc
  | dummy => rw [hn] at hc; cases hc
  | unit x y z l r =>
    obtain ⟨h1, h2⟩ := h.children (id := i) (l := l) (r := r) (by rw [hn]; rfl)
    rw [hn] at hc
    simp only [Node.childIds, List.mem_cons, List.not_mem_nil, or_false] at hc
    rcases hc with rfl | rfl <;> assumption
  | general x y z w l r =>
    obtain ⟨h1, h2⟩ := h.children (id := i) (l := l) (r := r) (by rw [hn]; rfl)
    rw [hn] at hc
    simp only [Node.childIds, List.mem_cons, List.not_mem_nil, or_false] at hc
    rcases hc with rfl | rfl <;> assumption

theorem Node.withIds_id {n : Node} {f : Nat → Nat} (h : ∀ c ∈ n.childIds, f c = c) : n.withIds f = n := by
  cases n with
  | leaf => rfl
  | dummy => rfl
  | unit x y z l r =>
    have h1 := h l.id (by simp [Node.childIds])
    have h2 := h r.id (by simp [Node.childIds])
    simp [Node.withIds, h1, h2]
  | general x y z w l r =>
    have h1 := h l.id (by simp [Node.childIds])
    have h2 := h r.id (by simp [Node.childIds])
    simp [Node.withIds, h1, h2]

/-- What `drain` does, by cases. -/
theorem Db.drain_cases {db : Db} (hw : db.WF) (lo hi : Bound) :
    let a := drainStart lo
    let b := drainEnd db.nodes.length hi
    (b ≤ a ∧ db.drain lo hi = (.removed [], db)) ∨
    (a < b ∧ ∃ i c db', db.drain lo hi = (.err i c, db') ∧ b ≤ i ∧ i < db.nodes.length ∧ c ∈ (db.node i).childIds ∧ a ≤ c ∧ c < b ∧
      ∀ j, b ≤ j → j < i → ∀ c ∈ (db.node j).childIds, Outside a b c) ∨
    (a < b ∧ db.nodes.length < b ∧ ∃ db', db.drain lo hi = (.panic, db')) ∨
    ∃ db', db.drain lo hi = (.removed ((db.nodes.drop a).take (b - a)), db') ∧ Removed db db' a b := by
  intro a b
  have hdef : db.drain lo hi = if b ≤ a then (.removed [], db)
    else
      match (drainFrom a b b (db.nodes.drop b)).2 with
      | some (i, c) => (.err i c, ⟨db.nodes.take b ++ (drainFrom a b b (db.nodes.drop b)).1, db.lookupLeaf, db.dummyId⟩)
      | none =>
        if b ≤ db.nodes.length then
          (.removed (((db.nodes.take b ++ (drainFrom a b b (db.nodes.drop b)).1).take b).drop a),
            ⟨(db.nodes.take b ++ (drainFrom a b b (db.nodes.drop b)).1).take a ++
              (db.nodes.take b ++ (drainFrom a b b (db.nodes.drop b)).1).drop b, drainLookup a b db.lookupLeaf, db.dummyId⟩)
        else (.panic, ⟨db.nodes.take b ++ (drainFrom a b b (db.nodes.drop b)).1, drainLookup a b db.lookupLeaf, db.dummyId⟩) := rfl
  by_cases hab : b ≤ a
  · exact Or.inl ⟨hab, by rw [hdef, if_pos hab]⟩
  · rw [if_neg hab] at hdef
    have hab' : a ≤ b := by omega
    have hnode : ∀ j n, (db.nodes.drop b)[j]? = some n → db.node (b + j) = n ∧ b + j < db.nodes.length := by
      intro j n h
      rw [List.getElem?_drop] at h
      exact ⟨Db.node_eq h, (List.getElem?_eq_some_iff.1 h).1⟩
    rcases drainFrom_spec hab' (db.nodes.drop b) b with ⟨e, h⟩ | ⟨i, c, n, ns', e, h1, h2, h3, h4, h5⟩
    · rw [e] at hdef
      simp only at hdef
      by_cases hlen : b ≤ db.nodes.length
      · rw [if_pos hlen] at hdef
        have htl : (db.nodes.take b).length = b := by rw [List.length_take]; omega
        rw [List.take_append_of_le_length (by omega), List.take_append_of_le_length (by omega),
          List.drop_append_of_le_length (by omega), List.take_take, List.take_take, Nat.min_eq_left hab', Nat.min_self,
          List.drop_take] at hdef
        have hd0 : (db.nodes.take b).drop b = [] := List.drop_eq_nil_of_le (by omega)
        rw [hd0, List.nil_append] at hdef
        refine Or.inr (Or.inr (Or.inr ⟨_, hdef, by omega, hlen, ?_, ?_, ?_, ?_, rfl⟩))
        · simp; omega
        · intro i hi
          unfold Db.node
          simp only [List.getD_eq_getElem?_getD]
          rcases hi with hi | hi
          · have : newId a b i = i := by unfold newId; rw [if_pos hi]
            rw [this, List.getElem?_append_left (by simp; omega), List.getElem?_take, if_pos hi]
            rw [Node.withIds_id]
            intro c hc
            have := hw.childLt i c (by unfold Db.node; rw [List.getD_eq_getElem?_getD]; exact hc)
            unfold newId; rw [if_pos (by omega)]
          · have hta : (db.nodes.take a).length = a := by rw [List.length_take]; omega
            have : newId a b i = i - (b - a) := by unfold newId; rw [if_neg (by omega)]
            rw [this, List.getElem?_append_right (by omega), hta, List.getElem?_map, List.getElem?_drop]
            rw [show b + (i - (b - a) - a) = i by omega]
            cases db.nodes[i]? <;> rfl
        · intro i hi c hc
          have hlt := hw.childLt i c hc
          refine ⟨?_, hlt⟩
          rcases hi with hi | hi
          · exact Or.inl (by omega)
          · rcases Nat.lt_or_ge i db.nodes.length with hil | hil
            · refine h (db.node i) (List.mem_iff_getElem?.2 ⟨i - b, ?_⟩) c hc
              rw [List.getElem?_drop, show b + (i - b) = i by omega]
              exact Db.getElem?_node hil
            · rw [Db.node_out hil] at hc; cases hc
        · intro l
          simp only
          rw [drainLookup_spec]
          congr 1
          funext id
          by_cases hr : inRange a b id = true
          · rw [if_pos hr, if_pos hr]
          · rw [if_neg hr, if_neg hr, shiftId_eq hab' (outside_of_not hr)]
      · rw [if_neg hlen] at hdef
        exact Or.inr (Or.inr (Or.inl ⟨by omega, by omega, _, hdef⟩))
    · rw [e] at hdef
      simp only at hdef
      obtain ⟨k1, k2⟩ := hnode i n h1
      refine Or.inr (Or.inl ⟨by omega, _, _, _, hdef, by omega, k2, by rw [k1]; exact h2, h3, h4, ?_⟩)
      intro j hj1 hj2
      have : (db.nodes.drop b)[j - b]? = some (db.node j) := by
        rw [List.getElem?_drop, show b + (j - b) = j by omega]; exact Db.getElem?_node (by omega)
      exact h5 (j - b) (by omega) _ this

theorem Node.withIds_shape (f : Nat → Nat) (n : Node) : (n.withIds f).shape = match n.shape with
    | .leaf l => .leaf l
    | .inner l r => .inner { l with id := f l.id } { r with id := f r.id }
    | .dummy => .dummy := by cases n <;> rfl

theorem Node.mem_childIds {n : Node} {l r : NodeCon} (h : n.shape = .inner l r) : l.id ∈ n.childIds ∧ r.id ∈ n.childIds := by
  cases n <;> simp only [Node.shape, reduceCtorEq, Shape.inner.injEq] at h <;> simp [Node.childIds, h]

/-- Values of the remaining nodes do not change. -/
theorem Removed.valueF {db db' : Db} {a b : Nat} (h : Removed db db' a b) (T : Lit → Bool) : ∀ f f' i, Outside a b i → i < f →
    newId a b i < f' → TotDb.valueF db' T f' (newId a b i) = TotDb.valueF db T f i := by
  have hab := Nat.le_of_lt h.ab
  intro f
  induction f with
  | zero => intro f' i _ h1; omega
  | succ f ih =>
    intro f' i hi h1 h2
    cases f' with
    | zero => omega
    | succ f' =>
      rw [valueF_succ, valueF_succ, h.node i hi, Node.withIds_shape]
      cases hs : (db.node i).shape with
      | leaf l => rfl
      | dummy => rfl
      | inner l r =>
        obtain ⟨m1, m2⟩ := Node.mem_childIds hs
        obtain ⟨o1, l1⟩ := h.child i hi _ m1
        obtain ⟨o2, l2⟩ := h.child i hi _ m2
        have k1 := newId_lt hab o1 hi l1
        have k2 := newId_lt hab o2 hi l2
        simp only
        rw [ih f' l.id o1 (by omega) (by omega), ih f' r.id o2 (by omega) (by omega)]
        rfl

theorem Removed.value {db db' : Db} {a b : Nat} (h : Removed db db' a b) (T : Lit → Bool) {i : Nat} (hi : Outside a b i) :
    TotDb.value db' T (newId a b i) = TotDb.value db T i :=
  h.valueF T _ _ i hi (Nat.lt_succ_self _) (Nat.lt_succ_self _)

/-- A position in the new database is a remaining node. -/
theorem newId_surj {a b : Nat} (hab : a < b) (j : Nat) : ∃ i, Outside a b i ∧ newId a b i = j := by
  by_cases h : j < a
  · exact ⟨j, Or.inl h, by unfold newId; rw [if_pos h]⟩
  · exact ⟨j + (b - a), Or.inr (by omega), by unfold newId; rw [if_neg (by omega)]; omega⟩

theorem Removed.lt {db db' : Db} {a b : Nat} (h : Removed db db' a b) {i : Nat} (hi : Outside a b i) (hl : i < db.nodes.length) :
    newId a b i < db'.nodes.length := by
  have := h.len; have := h.len'; have := h.ab
  unfold newId
  by_cases h1 : i < a
  · rw [if_pos h1]; omega
  · rw [if_neg h1]; rcases hi with hi | hi <;> omega

/-- The invariant of the database is kept, if the dummy node is before the range or does not exist. -/
theorem Removed.wf {db db' : Db} {a b : Nat} (h : Removed db db' a b) (hw : db.WF) (hd : ∀ d, db.dummyId = some d → d < a) : db'.WF := by
  have hab := Nat.le_of_lt h.ab
  have hcl : ∀ c : NodeCon, Outside a b c.id → db'.conLen { c with id := newId a b c.id } = db.conLen c := by
    intro c hc
    unfold Db.conLen
    simp only
    rw [h.node c.id hc]
    have : ((db.node c.id).withIds (newId a b)).len = (db.node c.id).len := by cases db.node c.id <;> rfl
    rw [this]
  have hcv : ∀ c : NodeCon, Outside a b c.id → conVals db' { c with id := newId a b c.id } = conVals db c := by
    intro c hc
    have hm : NodeCon.map { c with id := newId a b c.id } = c.map := rfl
    unfold conVals
    simp only
    rw [h.node c.id hc, hm]
    have : ∀ x, ((db.node c.id).withIds (newId a b)).valsFrom x = (db.node c.id).valsFrom x := by intro x; cases db.node c.id <;> rfl
    rw [this]
  have huc : ∀ c : NodeCon, Outside a b c.id → UnitCon db c → UnitCon db' { c with id := newId a b c.id } := by
    intro c hc u
    have e1 : ((db.node c.id).withIds (newId a b)).len = (db.node c.id).len := by cases db.node c.id <;> rfl
    have e2 : ((db.node c.id).withIds (newId a b)).isGeneral = (db.node c.id).isGeneral := by cases db.node c.id <;> rfl
    exact ⟨h.lt hc u.id, ⟨u.wf.1, u.wf.2, u.wf.3⟩, u.mult, by simp only; rw [h.node _ hc, e1]; exact u.offset,
      by simp only; rw [h.node _ hc, e2]; exact u.notGeneral⟩
  have hpc : ∀ c : NodeCon, Outside a b c.id → PlainCon db c → PlainCon db' { c with id := newId a b c.id } := fun c hc p =>
    ⟨h.lt hc p.id, p.offset, p.divisor, p.mult, p.limit⟩
  refine ⟨fun j n hn => ?_, fun l id hl => ?_, fun id hid => ?_⟩
  · obtain ⟨i, hi, rfl⟩ := newId_surj h.ab j
    have hlt : newId a b i < db'.nodes.length := (List.getElem?_eq_some_iff.1 hn).1
    have hil : i < db.nodes.length := by
      have := h.len; have := h.len'; have := h.ab
      unfold newId at hlt
      by_cases h1 : i < a
      · omega
      · rw [if_neg h1] at hlt; omega
    have hok := hw.nodes i _ (Db.getElem?_node hil)
    have hc := h.child i hi
    have he := h.node i hi
    rw [Db.node_eq hn] at he
    subst he
    cases hx : db.node i with
    | leaf => trivial
    | dummy => trivial
    | unit lits x y l r =>
      rw [hx] at hok hc
      obtain ⟨o1, l1⟩ := hc l.id (by simp [Node.childIds])
      obtain ⟨o2, l2⟩ := hc r.id (by simp [Node.childIds])
      obtain ⟨_, _, u1, u2, e⟩ := hok
      exact ⟨newId_lt hab o1 hi l1, newId_lt hab o2 hi l2, huc l o1 u1, huc r o2 u2, by rw [hcl l o1, hcl r o2]; exact e⟩
    | general lits x y m l r =>
      rw [hx] at hok hc
      obtain ⟨o1, l1⟩ := hc l.id (by simp [Node.childIds])
      obtain ⟨o2, l2⟩ := hc r.id (by simp [Node.childIds])
      obtain ⟨_, _, u1, u2, e1, e2, e3⟩ := hok
      exact ⟨newId_lt hab o1 hi l1, newId_lt hab o2 hi l2, hpc l o1 u1, hpc r o2 u2, e1, by rw [hcv l o1, hcv r o2]; exact e2, e3⟩
  · rw [h.lookup l] at hl
    cases hk : db.lookupLeaf.lookup l with
    | none => rw [hk] at hl; cases hl
    | some i =>
      rw [hk] at hl
      simp only [Option.bind_some] at hl
      by_cases hr : inRange a b i = true
      · rw [if_pos hr] at hl; cases hl
      · rw [if_neg hr] at hl
        cases hl
        have hn := hw.lookup l i hk
        have ho := outside_of_not hr
        have hlt := h.lt ho (List.getElem?_eq_some_iff.1 hn).1
        rw [Db.getElem?_node hlt, h.node i ho, Db.node_eq hn]
        rfl
  · rw [h.dummyId] at hid
    have hn := hw.dummy id hid
    have hlt := hd id hid
    have ho : Outside a b id := Or.inl hlt
    have e : newId a b id = id := by unfold newId; rw [if_pos hlt]
    have := h.lt ho (List.getElem?_eq_some_iff.1 hn).1
    rw [e] at this
    have hnode := h.node id ho
    rw [e, Db.node_eq hn] at hnode
    rw [Db.getElem?_node this, hnode]
    rfl

/-- A check of the invariant for a connection without a weight. -/
def Db.checkCon (db : Db) (c : NodeCon) : Bool :=
  decide (0 < c.divisor) && decide (c.multiplier = 1) && (c.lenLimit.all fun k => decide (0 < k)) && decide (c.offset ≤ (db.node c.id).len) &&
    !(db.node c.id).isGeneral

theorem Db.checkCon_spec {db : Db} {c : NodeCon} (h : db.checkCon c = true) (hid : c.id < db.nodes.length) : UnitCon db c := by
  simp only [Db.checkCon, Bool.and_eq_true, decide_eq_true_eq, Bool.not_eq_true'] at h
  obtain ⟨⟨⟨⟨h1, h2⟩, h3⟩, h4⟩, h5⟩ := h
  exact ⟨hid, ⟨h1, by omega, fun k hk => by rw [hk] at h3; simpa using h3⟩, h2, h4, h5⟩

/-- A check of the invariant for databases without weights. -/
def Db.check (db : Db) : Bool :=
  ((List.range db.nodes.length).all fun i =>
    match db.node i with
    | .leaf _ | .dummy => true
    | .unit lits _ _ l r => db.checkCon l && db.checkCon r && decide (l.id < i) && decide (r.id < i) &&
        decide (lits.length = db.conLen l + db.conLen r)
    | .general .. => false) &&
  (db.lookupLeaf.all fun x => decide (db.nodes[x.2]? = some (.leaf x.1))) &&
  db.dummyId.all fun d => decide (db.nodes[d]? = some .dummy)

theorem Db.WF.of_check {db : Db} (h : db.check = true) : db.WF := by
  simp only [Db.check, Bool.and_eq_true, List.all_eq_true, List.mem_range, decide_eq_true_eq] at h
  obtain ⟨⟨h1, h2⟩, h3⟩ := h
  refine ⟨fun i n hn => ?_, fun l id hl => ?_, fun id hid => ?_⟩
  · have hi := (List.getElem?_eq_some_iff.1 hn).1
    have := h1 i hi
    rw [Db.node_eq hn] at this
    cases n with
    | leaf => trivial
    | dummy => trivial
    | general => simp at this
    | unit lits d k l r =>
      simp only [Bool.and_eq_true, decide_eq_true_eq, Bool.not_eq_true'] at this
      obtain ⟨⟨⟨⟨e1, e2⟩, e3⟩, e4⟩, e7⟩ := this
      exact ⟨e3, e4, Db.checkCon_spec e1 (by omega), Db.checkCon_spec e2 (by omega), e7⟩
  · have : (l, id) ∈ db.lookupLeaf := by
      have key : ∀ m : List (Lit × Nat), m.lookup l = some id → (l, id) ∈ m := by
        intro m
        induction m with
        | nil => intro h; cases h
        | cons x m ih =>
          obtain ⟨y, v⟩ := x
          intro h
          rw [List.lookup_cons] at h
          by_cases hy : l == y
          · rw [hy] at h
            simp only [Option.some.injEq] at h
            rw [beq_iff_eq] at hy
            subst hy; subst h
            exact List.mem_cons_self ..
          · simp only [Bool.not_eq_true] at hy
            rw [hy] at h
            exact List.mem_cons_of_mem _ (ih h)
      exact key _ hl
    exact h2 _ this
  · rw [hid] at h3
    simpa using h3

end TotDb
end RustSat
