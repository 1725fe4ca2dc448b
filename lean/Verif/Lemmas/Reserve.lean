import Verif.Lemmas.Core
/-
`reserve_vars`: only allocates variables.
-/
namespace RustSat
namespace TotDb

theorem outLit_outData {db : Db} {id k : Nat} {d : LitData} (h : db.outLit id k = some d) :
    ∃ v, (db.node id).outData k = some (v, d) := by
  unfold Db.outLit at h
  cases hn : db.node id with
  | leaf => rw [hn] at h; cases h
  | dummy => rw [hn] at h; cases h
  | unit lits =>
    rw [hn] at h
    exact ⟨k + 1, by simp [Node.outData]; exact h⟩
  | general lits =>
    rw [hn] at h
    simp only [Option.map_eq_some_iff] at h
    obtain ⟨x, hx, rfl⟩ := h
    exact ⟨x.1, hx⟩

theorem setOut_node {db : Db} {id k : Nat} {d : LitData} (i : Nat) :
    (db.setOut id k d).node i = if i = id then
      (match db.node id with
      | .unit lits depth nl l r => .unit (lits.set k d) depth nl l r
      | .general lits depth nl m l r => .general (lits.modify k fun x => (x.1, d)) depth nl m l r
      | n => n) else db.node i := by
  unfold Db.setOut
  cases hn : db.node id with
  | leaf => by_cases h : i = id; subst h; simp [hn]; simp [h]
  | dummy => by_cases h : i = id; subst h; simp [hn]; simp [h]
  | unit => exact Db.node_set (Db.node_lt (by rw [hn]; intro h; cases h)) _ i
  | general => exact Db.node_set (Db.node_lt (by rw [hn]; intro h; cases h)) _ i

theorem setOut_upd {db : Db} {id k v : Nat} {d d' : LitData} (hd : (db.node id).outData k = some (v, d))
    (hr : LitRef d d') : OutUpd db (db.setOut id k d') id k v d d' := by
  cases hn : db.node id with
  | leaf => rw [hn] at hd; cases hd
  | dummy => rw [hn] at hd; cases hd
  | unit lits dp nl lc rc =>
    rw [hn] at hd
    simp only [Node.outData, Option.map_eq_some_iff] at hd
    obtain ⟨x, hx, e⟩ := hd
    cases e
    have := setUnit_upd hn hx hr
    have e : db.setOut id k d' = db.setUnit id k d' := by unfold Db.setOut Db.setUnit; rw [hn]
    rw [e]
    exact this
  | general lits dp nl m lc rc =>
    rw [hn] at hd
    simp only [Node.outData] at hd
    have hk : k < lits.length := (List.getElem?_eq_some_iff.1 hd).1
    have hnode := fun i => setOut_node (db := db) (id := id) (k := k) (d := d') i
    rw [hn] at hnode
    simp only at hnode
    refine ⟨⟨?_, ?_, ?_, fun i => ?_⟩, by rw [hn]; exact hd, ?_, fun i k' h => ?_⟩
    · unfold Db.setOut; rw [hn]; simp
    · unfold Db.setOut; rw [hn]
    · unfold Db.setOut; rw [hn]
    · rw [hnode]
      by_cases h : i = id
      · subst h
        rw [if_pos rfl, hn]
        refine ⟨rfl, rfl, rfl, rfl, rfl, ?_, fun j x y hx hy => ?_⟩
        · apply List.ext_getElem?
          intro j
          simp only [List.getElem?_map, List.getElem?_modify]
          cases lits[j]? with
          | none => simp
          | some x => by_cases hj : k = j <;> simp [hj]
        · simp only [List.getElem?_modify, hx] at hy
          by_cases hj : k = j
          · subst hj
            simp only [if_true] at hy
            cases hy
            rw [hd] at hx
            cases hx
            exact hr
          · simp only [if_neg hj] at hy
            cases hy
            exact LitRef.refl _
      · rw [if_neg h]
        exact NodeRel.refl LitRef.refl _
    · rw [hnode, if_pos rfl]
      simp only [Node.outData, List.getElem?_modify, if_true, hd]
      rfl
    · rw [hnode]
      by_cases hi : i = id
      · subst hi
        rw [if_pos rfl, hn]
        have hk : k ≠ k' := by rcases h with h | h; exact absurd rfl h; exact Ne.symm h
        simp only [Node.outData, List.getElem?_modify, if_neg hk]
        cases lits[k']? <;> rfl
      · rw [if_neg hi]

variable {VM : Type} [ManageVars VM]

theorem reserveOut_step [LawfulVM VM] (st : St VM) (hw : st.db.WF) (id k : Nat) :
    Step st (reserveOut st id k) ∧ (reserveOut st id k).cls = st.cls ∧ ∀ i Q sem, Adds st.db (reserveOut st id k).db i Q sem := by
  unfold reserveOut
  cases h : st.db.outLit id k with
  | none => exact ⟨Step.refl _, rfl, fun _ _ _ => Adds.of_node rfl _ _⟩
  | some d =>
    cases d with
    | lit => exact ⟨Step.refl _, rfl, fun _ _ _ => Adds.of_node rfl _ _⟩
    | none =>
      obtain ⟨v, hv⟩ := outLit_outData h
      exact ⟨step_alloc (setOut_upd hv (LitRef.none _)) hw, rfl,
        fun i _ _ => (setOut_upd hv (LitRef.none _)).adds (fun h => by cases h) (fun h => by cases h) i⟩

theorem reserveOuts_step [LawfulVM VM] (id : Nat) : ∀ (ks : List Nat) (st : St VM), st.db.WF →
    Step st (reserveOuts st id ks) ∧ (reserveOuts st id ks).cls = st.cls ∧
      ∀ i Q sem, Adds st.db (reserveOuts st id ks).db i Q sem := by
  intro ks
  induction ks with
  | nil => intro st _; exact ⟨Step.refl _, rfl, fun _ _ _ => Adds.of_node rfl _ _⟩
  | cons k ks ih =>
    intro st hw
    obtain ⟨h1, h2, a1⟩ := reserveOut_step st hw id k
    obtain ⟨h3, h4, a2⟩ := ih (reserveOut st id k) (h1.ref.wf hw)
    exact ⟨h1.trans hw h3, h4.trans h2, fun i Q sem => (a1 i Q sem).trans (a2 i Q sem)⟩

theorem conIdxs_some {db : Db} {c : NodeCon} (hc : (db.node c.id).isGeneral = true ∨ c.offset ≤ (db.node c.id).len) :
    ∃ ks, conIdxs db c = some ks := by
  unfold conIdxs
  by_cases hd : c.divisor = 1
  · simp only [hd, if_true]
    cases c.lenLimit with
    | some l => exact ⟨_, rfl⟩
    | none =>
      unfold Node.fromIdxs
      cases hn : db.node c.id with
      | leaf => exact ⟨_, rfl⟩
      | dummy => exact ⟨_, rfl⟩
      | general => exact ⟨_, rfl⟩
      | unit lits =>
        rw [hn] at hc
        have : c.offset ≤ lits.length := by
          rcases hc with h | h
          · cases h
          · exact h
        simp only
        rw [if_pos (by omega)]
        exact ⟨_, rfl⟩
  · simp only [if_neg hd]
    exact ⟨_, rfl⟩

/-- `reserve_vars` does not panic, adds no clauses and only allocates variables. -/
theorem reserveVars_spec [LawfulVM VM] : ∀ (fuel : Nat) (st : St VM) (c : NodeCon), st.db.WF → c.id < fuel →
    ((st.db.node c.id).isGeneral = true ∨ c.offset ≤ (st.db.node c.id).len) →
    ∃ st', reserveVars fuel st c = some st' ∧ Step st st' ∧ st'.cls = st.cls ∧ ∀ i Q sem, Adds st.db st'.db i Q sem := by
  intro fuel
  induction fuel with
  | zero => intro st c _ h; omega
  | succ fuel ih =>
    intro st c hw hf hc
    have inner : ∀ l r, (st.db.node c.id).shape = .inner l r →
        ((st.db.node l.id).isGeneral = true ∨ l.offset ≤ (st.db.node l.id).len) →
        ((st.db.node r.id).isGeneral = true ∨ r.offset ≤ (st.db.node r.id).len) →
        ∃ st', (match reserveVars fuel st l with
          | none => none
          | some st =>
            match reserveVars fuel st r with
            | none => none
            | some st =>
              match conIdxs st.db c with
              | none => none
              | some ks => some (reserveOuts st c.id ks)) = some st' ∧ Step st st' ∧ st'.cls = st.cls ∧
          ∀ i Q sem, Adds st.db st'.db i Q sem := by
      intro l r hs hl hr
      obtain ⟨h1, h2⟩ := hw.children hs
      obtain ⟨st1, e1, s1, c1, a1⟩ := ih st l hw (by omega) hl
      have hw1 := s1.ref.wf hw
      obtain ⟨st2, e2, s2, c2, a2⟩ := ih st1 r hw1 (by omega) (by
        rw [(s1.ref.node r.id).isGeneral, (s1.ref.node r.id).len]; exact hr)
      have hw2 := s2.ref.wf hw1
      obtain ⟨ks, e3⟩ := conIdxs_some (db := st2.db) (c := c) (by
        rw [((s1.ref.trans s2.ref).node c.id).isGeneral, ((s1.ref.trans s2.ref).node c.id).len]; exact hc)
      obtain ⟨s3, c3, a3⟩ := reserveOuts_step c.id ks st2 hw2
      exact ⟨_, by simp only [e1, e2, e3], (s1.trans hw s2).trans hw s3, by rw [c3, c2, c1],
        fun i Q sem => ((a1 i Q sem).trans (a2 i Q sem)).trans (a3 i Q sem)⟩
    unfold reserveVars
    cases hn : st.db.node c.id with
    | leaf => exact ⟨st, rfl, Step.refl _, rfl, fun _ _ _ => Adds.of_node rfl _ _⟩
    | dummy => exact ⟨st, rfl, Step.refl _, rfl, fun _ _ _ => Adds.of_node rfl _ _⟩
    | unit lits dp nl l r =>
      have hok := hw.nodes c.id _ (Db.getElem?_node (Db.node_lt (by rw [hn]; intro h; cases h)))
      rw [hn] at hok
      exact inner l r (by rw [hn]; rfl) (Or.inr hok.2.2.1.offset) (Or.inr hok.2.2.2.1.offset)
    | general lits dp nl m l r =>
      have hok := hw.nodes c.id _ (Db.getElem?_node (Db.node_lt (by rw [hn]; intro h; cases h)))
      rw [hn] at hok
      exact inner l r (by rw [hn]; rfl) (Or.inr (by rw [hok.2.2.1.offset]; omega)) (Or.inr (by rw [hok.2.2.2.1.offset]; omega))

end TotDb
end RustSat
