import Verif.Lemmas.Drain
/-
C102: removing nodes from a totalizer database (`drain`).
-/
namespace RustSat
namespace TotDb

theorem boundIds_iff (len : Nat) (lo hi : Bound) (i : Nat) : BoundIds len lo hi i ↔ drainStart lo ≤ i ∧ i < drainEnd len hi := by
  unfold BoundIds drainStart drainEnd
  cases lo <;> cases hi <;> simp only [true_and, Nat.zero_le] <;> omega

/-- **C102** (removing). If nodes are removed then these are the nodes with the given ids, in order. Every other node is
kept with its outputs and its children, under its new id, and has the same value for all inputs. Leaves are found under
their new ids; leaves that were removed are not found. If there is no dummy node, or if it is before the range, then the
database keeps its invariant, on which the properties of all encodings rest. -/
theorem C102_removed_partial (db : Db) (hw : db.WF) (lo hi : Bound) (ns : List Node) (db' : Db) (h : db.drain lo hi = (.removed ns, db')) :
    ∃ a b, (∀ i, BoundIds db.nodes.length lo hi i ↔ a ≤ i ∧ i < b) ∧ b ≤ db.nodes.length ∧
      ns = (db.nodes.drop a).take (b - a) ∧ db'.nodes.length + ns.length = db.nodes.length ∧
      (∀ i, ¬ (a ≤ i ∧ i < b) → db'.node (newId a b i) = (db.node i).withIds (newId a b) ∧
        ∀ T, value db' T (newId a b i) = value db T i) ∧
      (∀ l, db'.lookupLeaf.lookup l = (db.lookupLeaf.lookup l).bind fun i => if a ≤ i ∧ i < b then none else some (newId a b i)) ∧
      ((∀ d, db.dummyId = some d → ∀ i, BoundIds db.nodes.length lo hi i → d < i) → db'.WF) := by
  rcases Db.drain_cases hw lo hi with ⟨hba, e⟩ | ⟨_, i, c, _, e, -⟩ | ⟨_, _, _, e⟩ | ⟨db2, e, hr⟩
  · rw [e] at h
    cases h
    have hid : ∀ i, newId 0 0 i = i := fun i => by simp [newId]
    refine ⟨0, 0, fun i => ?_, by omega, by simp, by simp, fun i _ => ⟨?_, fun T => by rw [hid]⟩, fun l => ?_, fun _ => hw⟩
    · rw [boundIds_iff]; omega
    · rw [hid, Node.withIds_id fun c _ => hid c]
    · cases db.lookupLeaf.lookup l <;> simp [hid]
  · rw [e] at h; cases h
  · rw [e] at h; cases h
  · rw [e] at h
    cases h
    refine ⟨_, _, fun i => boundIds_iff _ lo hi i, hr.len, rfl, ?_, fun i hi' => ?_, fun l => ?_, fun hd => hr.wf hw fun d hd' => ?_⟩
    · have := hr.len; have := hr.len'; have := hr.ab
      rw [List.length_take, List.length_drop]; omega
    · have ho : Outside (drainStart lo) (drainEnd db.nodes.length hi) i := by unfold Outside; omega
      exact ⟨hr.node i ho, fun T => hr.value T ho⟩
    · rw [hr.lookup l]
      congr 1
      funext i
      by_cases hc : inRange (drainStart lo) (drainEnd db.nodes.length hi) i = true
      · rw [if_pos hc, if_pos (inRange_iff.1 hc)]
      · rw [if_neg hc, if_neg fun hh => hc (inRange_iff.2 hh)]
    · exact hd d hd' _ ((boundIds_iff _ lo hi _).2 ⟨Nat.le_refl _, hr.ab⟩)

/-- **C102** (errors). For a range within the database, nodes are removed if and only if no other node references one of
them; otherwise the error names the first node with such a reference, and the node that it references. -/
theorem C102_error_partial (db : Db) (hw : db.WF) (lo hi : Bound) (hr : ∀ i, BoundIds db.nodes.length lo hi i → i < db.nodes.length) :
    ((∃ ns db', db.drain lo hi = (.removed ns, db')) ∧
      ∀ i, ¬ BoundIds db.nodes.length lo hi i → ∀ c ∈ (db.node i).childIds, ¬ BoundIds db.nodes.length lo hi c) ∨
    ∃ i c db', db.drain lo hi = (.err i c, db') ∧ i < db.nodes.length ∧ ¬ BoundIds db.nodes.length lo hi i ∧ c ∈ (db.node i).childIds ∧
      BoundIds db.nodes.length lo hi c ∧
      ∀ j < i, ¬ BoundIds db.nodes.length lo hi j → ∀ c ∈ (db.node j).childIds, ¬ BoundIds db.nodes.length lo hi c := by
  simp only [boundIds_iff] at hr ⊢
  rcases Db.drain_cases hw lo hi with ⟨hba, e⟩ | ⟨hab, i, c, db', e, h1, h2, h3, h4, h5, h6⟩ | ⟨h1, h2, _⟩ | ⟨db2, e, h⟩
  · exact Or.inl ⟨⟨_, _, e⟩, fun i _ c _ hc => by omega⟩
  · refine Or.inr ⟨i, c, db', e, h2, by omega, h3, ⟨h4, h5⟩, fun j hj hjo c' hc' hcr => ?_⟩
    have hlt := hw.childLt j c' hc'
    have := h6 j (by omega) hj c' hc'
    unfold Outside at this
    omega
  · have := hr (drainEnd db.nodes.length hi - 1) (by omega)
    omega
  · refine Or.inl ⟨⟨_, _, e⟩, fun i hi' c hc hcr => ?_⟩
    have := (h.child i (by unfold Outside; omega) c hc).1
    unfold Outside at this
    omega

/-- Three trees; the first and the third are merged. -/
def drainDemo : Db :=
  let (t1, db) := litTree Db.empty [.pos 0, .pos 1]
  let (_, db) := litTree db [.pos 2, .pos 3]
  let (t3, db) := litTree db [.pos 4, .pos 5]
  (merge db [NodeCon.full (t1.getD 0), NodeCon.full (t3.getD 0)]).2

/-- Non-vacuity: removing the second tree, nodes 3 to 5. The root gets the id 6. A range with only its first leaf is refused,
an empty range removes nothing, and a range that ends too late panics. -/
example : drainDemo.WF ∧ drainDemo.nodes.length = 10 ∧
    drainDemo.drain (.excl 2) (.incl 5) = (.removed [.leaf (.pos 2), .leaf (.pos 3),
      .unit [.none, .none] 2 2 (NodeCon.full 3) (NodeCon.full 4)], (drainDemo.drain (.incl 3) (.excl 6)).2) ∧
    ((drainDemo.drain (.incl 3) (.excl 6)).2.node 6).childIds = [2, 5] ∧
    (drainDemo.drain (.incl 3) (.excl 6)).2.lookupLeaf.lookup (.pos 4) = some 3 ∧
    (drainDemo.drain .unbounded (.excl 1)).1 = .err 2 0 ∧ (drainDemo.drain .unbounded .unbounded).2.nodes = [] ∧
    (drainDemo.drain (.incl 5) (.excl 5)).1 = .removed [] ∧ (drainDemo.drain (.incl 9) (.incl 10)).1 = .panic := by
  refine ⟨.of_check (by decide), by decide, by decide, by decide, by decide, by decide, by decide, by decide, by decide⟩

/-- A tree over two literals, and a merge of it with a leaf that was there before. -/
def drainDemo2 : Db :=
  let (i, db) := Db.empty.insert (.leaf (.pos 0))
  let (t, db) := litTree db [.pos 1, .pos 2]
  (merge db [NodeCon.full i, NodeCon.full (t.getD 0)]).2

/-- **C102 is violated** by errors: a refused call has already changed the nodes before the one that is reported. The leaf
0 cannot be removed, but after the attempt the node over the literals 1 and 2 adds up the literals 0 and 1. -/
theorem C102_violated_error : drainDemo2.WF ∧ (drainDemo2.drain (.incl 0) (.excl 1)).1 = .err 4 0 ∧
    ∃ T, value drainDemo2 T 3 = 1 ∧ value (drainDemo2.drain (.incl 0) (.excl 1)).2 T 3 = 0 :=
  ⟨.of_check (by decide), by decide, fun l => l == .pos 2, by decide, by decide⟩

/-- **C102 is violated** for the dummy node: its id is not adjusted. Afterwards inserting the dummy node returns the id of
another node, or of no node at all. -/
theorem C102_violated_dummy : ∃ db : Db, db.WF ∧ (db.insert .dummy).1 = 1 ∧ ∃ ns db', db.drain (.incl 0) (.excl 1) = (.removed ns, db') ∧
    (db'.insert .dummy).1 = 1 ∧ db'.nodes.length = 1 ∧
    ((db'.insert (.leaf (.pos 5))).2.insert .dummy).1 = 1 ∧ ((db'.insert (.leaf (.pos 5))).2.insert .dummy).2.node 1 = .leaf (.pos 5) :=
  ⟨((Db.empty.insert (.leaf (.pos 0))).2.insert .dummy).2, .of_check (by decide), by decide, _, _, rfl, by decide, by decide, by decide, by decide⟩

end TotDb
end RustSat
