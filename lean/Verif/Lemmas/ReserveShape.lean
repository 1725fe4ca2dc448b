import Verif.Lemmas.ReserveAll
/-
Defining outputs and reserving variables does not change the connections between nodes.
-/
namespace RustSat
namespace TotDb
variable {VM : Type} [ManageVars VM]

/-- The connections are the same. -/
def Sh (a b : Db) : Prop := b.nodes.length = a.nodes.length ∧ ∀ i, (b.node i).shape = (a.node i).shape

theorem Sh.refl (a : Db) : Sh a a := ⟨rfl, fun _ => rfl⟩

theorem Sh.trans {a b c : Db} (h1 : Sh a b) (h2 : Sh b c) : Sh a c := ⟨h2.1.trans h1.1, fun i => (h2.2 i).trans (h1.2 i)⟩

theorem Sh.unlimited {a b : Db} (h : Sh a b) (hu : Unlimited a) : Unlimited b := fun i l r hs => hu i l r (by rw [← h.2 i]; exact hs)

theorem Sh.set {db : Db} {id : Nat} {n : Node} (h : n.shape = (db.node id).shape) : Sh db { db with nodes := db.nodes.set id n } := by
  refine ⟨by simp, fun i => ?_⟩
  unfold Db.node at h ⊢
  simp only [List.getD_eq_getElem?_getD] at h ⊢
  by_cases hi : id = i
  · subst hi
    by_cases hl : id < db.nodes.length
    · rw [List.getElem?_set_self hl]; exact h
    · rw [List.set_eq_of_length_le (by omega)]
  · rw [List.getElem?_set_ne hi]

theorem sh_setUnit (db : Db) (id idx : Nat) (d : LitData) : Sh db (db.setUnit id idx d) := by
  unfold Db.setUnit
  split
  · rename_i hn; exact Sh.set (by rw [hn]; rfl)
  · exact Sh.refl _

theorem sh_setOut (db : Db) (id k : Nat) (d : LitData) : Sh db (db.setOut id k d) := by
  unfold Db.setOut
  split
  · rename_i hn; exact Sh.set (by rw [hn]; rfl)
  · rename_i hn; exact Sh.set (by rw [hn]; rfl)
  · exact Sh.refl _

theorem getOlit_sh {st st' : St VM} {id idx : Nat} {l : Lit} (h : getOlit st id idx = some (l, st')) : Sh st.db st'.db := by
  unfold getOlit at h
  split at h
  · cases h; exact Sh.refl _
  · cases h; exact sh_setUnit _ _ _ _
  · cases h

omit [ManageVars VM] in
theorem encodeUnweighted_sh {st st' : St VM} {id idx : Nat} {l : Lit} {sem : Semantics} {p : Pre}
    (h : encodeUnweighted st id idx l sem p = some st') : Sh st.db st'.db := by
  unfold encodeUnweighted at h
  split at h
  · cases h
  · split at h
    · cases h
    · simp only at h
      split at h
      · split at h
        · cases h; exact sh_setUnit _ _ _ _
        · cases h
      · cases h

omit [ManageVars VM] in
theorem runRequests_sh {f : St VM → Nat → Nat → Semantics → Option (Lit × St VM)}
    (hf : ∀ st id idx sem l st', f st id idx sem = some (l, st') → Sh st.db st'.db) : ∀ (reqs : List (Nat × Nat × Semantics)) (st st' : St VM),
    runRequests f reqs st = some st' → Sh st.db st'.db := by
  intro reqs
  induction reqs with
  | nil => intro st st' h; cases h; exact Sh.refl _
  | cons q reqs ih =>
    intro st st' h
    obtain ⟨i, j, sm⟩ := q
    unfold runRequests at h
    cases h1 : f st i j sm with
    | none => rw [h1] at h; cases h
    | some r => rw [h1] at h; exact (hf _ _ _ _ _ _ h1).trans (ih _ _ h)

theorem defineUnweighted_sh : ∀ (fuel : Nat) (st : St VM) (id idx : Nat) (sem : Semantics) (l : Lit) (st' : St VM),
    defineUnweighted fuel st id idx sem = some (l, st') → Sh st.db st'.db := by
  intro fuel
  induction fuel with
  | zero => intro st id idx sem l st' h; cases h
  | succ fuel ih =>
    intro st id idx sem l st' h
    unfold defineUnweighted at h
    cases hp : precond st.db id idx sem with
    | panic => rw [hp] at h; cases h
    | ret x => rw [hp] at h; cases h; exact Sh.refl _
    | pass con =>
      rw [hp] at h
      simp only at h
      cases h1 : defineUnweighted fuel st con.id (conIdx idx con) sem with
      | none => rw [h1] at h; cases h
      | some r =>
        obtain ⟨x, st1⟩ := r
        rw [h1] at h
        simp only at h
        cases h2 : getOlit st1 id idx with
        | none => rw [h2] at h; cases h
        | some r =>
          obtain ⟨y, st2⟩ := r
          rw [h2] at h
          simp only at h
          cases h3 : st2.db.unitData id idx with
          | none => rw [h3] at h; cases h
          | some d =>
            rw [h3] at h
            cases h
            exact ((ih _ _ _ _ _ _ h1).trans (getOlit_sh h2)).trans (sh_setUnit _ _ _ _)
    | cont p =>
      rw [hp] at h
      simp only at h
      cases h1 : runRequests (fun st id idx sem => defineUnweighted fuel st id idx sem) (requests st.db p) st with
      | none => rw [h1] at h; cases h
      | some st1 =>
        rw [h1] at h
        simp only at h
        cases h2 : getOlit st1 id idx with
        | none => rw [h2] at h; cases h
        | some r =>
          obtain ⟨y, st2⟩ := r
          rw [h2] at h
          simp only at h
          cases h3 : encodeUnweighted st2 id idx y sem p with
          | none => rw [h3] at h; cases h
          | some st3 =>
            rw [h3] at h
            cases h
            exact ((runRequests_sh (fun _ _ _ _ _ _ h => ih _ _ _ _ _ _ h) _ _ _ h1).trans (getOlit_sh h2)).trans (encodeUnweighted_sh h3)

theorem define_sh {st st' : St VM} {id idx : Nat} {sem : Semantics} {l : Lit} (h : define st id idx sem = some (l, st')) : Sh st.db st'.db :=
  defineUnweighted_sh _ _ _ _ _ _ _ h

theorem defineAll_sh {id : Nat} {sem : Semantics} : ∀ (idxs : List Nat) (st st' : St VM), defineAll st id sem idxs = some st' → Sh st.db st'.db := by
  intro idxs
  induction idxs with
  | nil => intro st st' h; cases h; exact Sh.refl _
  | cons idx idxs ih =>
    intro st st' h
    unfold defineAll at h
    cases h1 : define st id idx sem with
    | none => rw [h1] at h; cases h
    | some r => rw [h1] at h; exact (define_sh h1).trans (ih _ _ h)

theorem weightedOlit_sh {st st' : St VM} {id k : Nat} {l : Lit} (h : weightedOlit st id k = some (l, st')) : Sh st.db st'.db := by
  unfold weightedOlit at h
  split at h
  · cases h; exact Sh.refl _
  · cases h; exact sh_setOut _ _ _ _
  · cases h

omit [ManageVars VM] in
theorem sumLoop_sh {f : St VM → Nat → Nat → Option (Option Lit × St VM)} (hf : ∀ st i v o st', f st i v = some (o, st') → Sh st.db st'.db)
    {lcon rcon : NodeCon} {rmax val : Nat} {olit : Lit} : ∀ (lvals : List Nat) (st st' : St VM),
    sumLoop f lcon rcon rmax val olit lvals st = some st' → Sh st.db st'.db := by
  intro lvals
  induction lvals with
  | nil => intro st st' h; cases h; exact Sh.refl _
  | cons lval lvals ih =>
    intro st st' h
    unfold sumLoop at h
    simp only at h
    split at h
    · cases h1 : f st rcon.id (rcon.revMap (val - lcon.map lval)) with
      | none => rw [h1] at h; cases h
      | some r =>
        obtain ⟨o, st1⟩ := r
        rw [h1] at h
        cases o with
        | none => exact (hf _ _ _ _ _ h1).trans (ih _ _ h)
        | some rlit =>
          simp only at h
          cases h2 : f st1 lcon.id lval with
          | none => rw [h2] at h; cases h
          | some r =>
            obtain ⟨o, st2⟩ := r
            rw [h2] at h
            cases o with
            | none => cases h
            | some llit => exact ((hf _ _ _ _ _ h1).trans (hf _ _ _ _ _ h2)).trans (ih (addClause st2 _) _ h)
    · exact ih _ _ h

omit [ManageVars VM] in
theorem propagateVal_sh {f : St VM → Nat → Nat → Option (Option Lit × St VM)} (hf : ∀ st i v o st', f st i v = some (o, st') → Sh st.db st'.db)
    {st st' : St VM} {con : NodeCon} {val : Nat} {olit : Lit} (h : propagateVal f con val olit st = some st') : Sh st.db st'.db := by
  unfold propagateVal at h
  split at h
  · cases h1 : f st con.id (con.revMap val) with
    | none => rw [h1] at h; cases h
    | some r =>
      obtain ⟨o, st1⟩ := r
      rw [h1] at h
      cases o with
      | none => cases h; exact hf _ _ _ _ _ h1
      | some l => cases h; exact (hf _ _ _ _ _ h1 : Sh st.db st1.db)
  · cases h; exact Sh.refl _

theorem defineWeighted_sh : ∀ (fuel : Nat) (st : St VM) (id val : Nat) (o : Option Lit) (st' : St VM),
    defineWeighted fuel st id val = some (o, st') → Sh st.db st'.db := by
  intro fuel
  induction fuel with
  | zero => intro st id val o st' h; cases h
  | succ fuel ih =>
    intro st id val o st' h
    unfold defineWeighted at h
    cases hn : st.db.node id with
    | leaf => rw [hn] at h; cases h; exact Sh.refl _
    | dummy => rw [hn] at h; cases h; exact Sh.refl _
    | unit lits dp nl lc rc =>
      rw [hn] at h
      simp only at h
      split at h
      · cases h; exact Sh.refl _
      · cases h1 : define st id (val - 1) .if_ with
        | none => rw [h1] at h; cases h
        | some r => rw [h1] at h; cases h; exact define_sh h1
    | general lits dp nl m lc rc =>
      rw [hn] at h
      simp only at h
      cases hk : valIdx lits val with
      | none => rw [hk] at h; cases h; exact Sh.refl _
      | some k =>
        rw [hk] at h
        simp only at h
        cases hd : st.db.outLit id k with
        | none => rw [hd] at h; cases h
        | some d =>
          rw [hd] at h
          simp only at h
          split at h
          · cases h; exact Sh.refl _
          · cases h1 : weightedOlit st id k with
            | none => rw [h1] at h; cases h
            | some r =>
              obtain ⟨olit, st1⟩ := r
              rw [h1] at h
              simp only at h
              cases h2 : sumLoop (defineWeighted fuel) lc rc (st1.db.node rc.id).maxVal val olit (sumVals st1.db lc val) st1 with
              | none => rw [h2] at h; cases h
              | some st2 =>
                rw [h2] at h
                simp only at h
                cases h3 : propagateVal (defineWeighted fuel) lc val olit st2 with
                | none => rw [h3] at h; cases h
                | some st3 =>
                  rw [h3] at h
                  simp only at h
                  cases h4 : propagateVal (defineWeighted fuel) rc val olit st3 with
                  | none => rw [h4] at h; cases h
                  | some st4 =>
                    rw [h4] at h
                    simp only at h
                    have hq := (((weightedOlit_sh h1).trans (sumLoop_sh (fun _ _ _ _ _ h => ih _ _ _ _ _ h) _ _ _ h2)).trans
                      (propagateVal_sh (fun _ _ _ _ _ h => ih _ _ _ _ _ h) h3)).trans (propagateVal_sh (fun _ _ _ _ _ h => ih _ _ _ _ _ h) h4)
                    split at h
                    · cases h
                    · cases h
                      exact hq.trans (sh_setOut _ _ _ _)

theorem defineVals_sh {id : Nat} : ∀ (vals : List Nat) (st st' : St VM), defineVals st id vals = some st' → Sh st.db st'.db := by
  intro vals
  induction vals with
  | nil => intro st st' h; cases h; exact Sh.refl _
  | cons v vals ih =>
    intro st st' h
    unfold defineVals at h
    cases h1 : defineWeighted (id + 1) st id v with
    | none => rw [h1] at h; cases h
    | some r =>
      obtain ⟨o, st1⟩ := r
      rw [h1] at h
      cases o with
      | none => cases h
      | some l => exact (defineWeighted_sh _ _ _ _ _ _ h1).trans (ih _ _ h)

theorem reserveOuts_sh (id : Nat) : ∀ (ks : List Nat) (st : St VM), Sh st.db (reserveOuts st id ks).db := by
  intro ks
  induction ks with
  | nil => intro st; exact Sh.refl _
  | cons k ks ih =>
    intro st
    refine Sh.trans ?_ (ih (reserveOut st id k))
    unfold reserveOut
    split
    · exact sh_setOut _ _ _ _
    · exact Sh.refl _

theorem reserveVars_sh : ∀ (fuel : Nat) (st st' : St VM) (c : NodeCon), reserveVars fuel st c = some st' → Sh st.db st'.db := by
  intro fuel
  induction fuel with
  | zero => intro st st' c h; cases h
  | succ fuel ih =>
    intro st st' c h
    have key : ∀ l r, (match reserveVars fuel st l with
      | none => none
      | some st =>
        match reserveVars fuel st r with
        | none => none
        | some st =>
          match conIdxs st.db c with
          | none => none
          | some ks => some (reserveOuts st c.id ks)) = some st' → Sh st.db st'.db := by
      intro l r h
      cases h1 : reserveVars fuel st l with
      | none => rw [h1] at h; cases h
      | some st1 =>
        rw [h1] at h
        simp only at h
        cases h2 : reserveVars fuel st1 r with
        | none => rw [h2] at h; cases h
        | some st2 =>
          rw [h2] at h
          simp only at h
          cases h3 : conIdxs st2.db c with
          | none => rw [h3] at h; cases h
          | some ks => rw [h3] at h; cases h; exact ((ih _ _ _ h1).trans (ih _ _ _ h2)).trans (reserveOuts_sh _ _ _)
    unfold reserveVars at h
    cases hn : st.db.node c.id with
    | leaf => rw [hn] at h; cases h; exact Sh.refl _
    | dummy => rw [hn] at h; cases h; exact Sh.refl _
    | unit lits dp nl l r => rw [hn] at h; exact key l r h
    | general lits dp nl m l r => rw [hn] at h; exact key l r h

theorem reset_sh (db : Db) (sem : Semantics) : Sh db (db.resetEncoded sem) :=
  ⟨by simp [Db.resetEncoded], fun i => (resetEncoded_rel db sem).shape i⟩

theorem reset_rel (db : Db) (sem : Semantics) : DbRel LitKeep db (db.resetEncoded sem) :=
  (resetEncoded_rel db sem).mono fun x y h => by
    intro l s hx
    unfold LitReset at h
    rw [h]
    exact (removeSemantics_rel sem x).1 l s hx

/-! ### Building trees -/

theorem Unlimited.mergeLevel {width rw lastRw : Nat} : ∀ (fuel : Nat) (db : Db) (cons : List NodeCon) (start idx : Nat), Unlimited db →
    (∀ c ∈ cons, c.lenLimit = none) → Unlimited (mergeLevel width rw lastRw fuel db cons start idx).1 ∧
      ∀ c ∈ (TotDb.mergeLevel width rw lastRw fuel db cons start idx).2, c.lenLimit = none := by
  intro fuel
  induction fuel with
  | zero => intro db cons start idx hu hc; exact ⟨hu, hc⟩
  | succ fuel ih =>
    intro db cons start idx hu hc
    have hget : ∀ i : Nat, (cons.getD i (NodeCon.full 0)).lenLimit = none := by
      intro i
      rw [List.getD_eq_getElem?_getD]
      cases h : cons[i]? with
      | none => rfl
      | some c => exact hc c (List.mem_of_getElem? h)
    unfold TotDb.mergeLevel
    simp only
    by_cases hst : start < cons.length
    · rw [if_pos hst]
      generalize (width + if lowBit idx &&& rw ≠ 0 then 1 else 0) = tw
      by_cases htw : tw = 1
      · rw [if_pos htw]; exact ih _ _ _ _ hu hc
      · rw [if_neg htw]
        have hm := fun a b => mergeCons_unlimited (l := cons.getD a (NodeCon.full 0)) (r := cons.getD b (NodeCon.full 0)) hu (hget a) (hget b)
        refine ih _ _ _ _ (hm _ _).2 fun c h => ?_
        rcases List.mem_or_eq_of_mem_set h with h | rfl
        · exact hc c h
        · exact (hm _ _).1
    · rw [if_neg hst]; exact ⟨hu, hc⟩

theorem Unlimited.mergeLoop : ∀ (fuel : Nat) (db : Db) (cons : List NodeCon) (width rw lastRw : Nat), Unlimited db →
    (∀ c ∈ cons, c.lenLimit = none) → Unlimited (mergeLoop fuel db cons width rw lastRw).1 ∧
      ∀ c ∈ (TotDb.mergeLoop fuel db cons width rw lastRw).2, c.lenLimit = none := by
  intro fuel
  induction fuel with
  | zero => intro db cons width rw lastRw hu hc; exact ⟨hu, hc⟩
  | succ fuel ih =>
    intro db cons width rw lastRw hu hc
    unfold TotDb.mergeLoop
    simp only
    split
    · obtain ⟨h1, h2⟩ := Unlimited.mergeLevel (width := width) (rw := rw) (lastRw := lastRw) cons.length db cons 0 1 hu hc
      exact ih _ _ _ _ _ h1 h2
    · exact ⟨hu, hc⟩

theorem Unlimited.merge {db : Db} {cons : List NodeCon} (hu : Unlimited db) (hc : ∀ c ∈ cons, c.lenLimit = none) :
    Unlimited (merge db cons).2 := by
  unfold TotDb.merge
  split
  · exact hu
  · exact (Unlimited.mergeLoop _ _ _ _ _ _ hu hc).1

theorem Unlimited.insertLeaves : ∀ (lits : List Lit) (db : Db), Unlimited db →
    Unlimited (insertLeaves db lits).2 ∧ ∀ c ∈ (TotDb.insertLeaves db lits).1, c.lenLimit = none := by
  intro lits
  induction lits with
  | nil => intro db hu; exact ⟨hu, fun c h => by cases h⟩
  | cons l lits ih =>
    intro db hu
    unfold TotDb.insertLeaves
    simp only
    obtain ⟨h1, h2⟩ := ih _ (hu.insert_leaf l)
    refine ⟨h1, fun c h => ?_⟩
    rcases List.mem_cons.1 h with rfl | h
    · rfl
    · exact h2 c h

theorem Unlimited.litTree {db : Db} (hu : Unlimited db) (lits : List Lit) : Unlimited (litTree db lits).2 := by
  unfold TotDb.litTree
  obtain ⟨h1, h2⟩ := Unlimited.insertLeaves lits db hu
  exact h1.merge h2

theorem Unlimited.mergeBalancedRec : ∀ (fuel : Nat) (db : Db) (cons : List NodeCon) (cum : List Nat) (offset : Nat), Unlimited db →
    (∀ c ∈ cons, c.lenLimit = none) → (mergeBalancedRec fuel db cons cum offset).1.lenLimit = none ∧
      Unlimited (TotDb.mergeBalancedRec fuel db cons cum offset).2 := by
  intro fuel
  induction fuel with
  | zero => intro db cons cum offset hu hc; exact ⟨rfl, hu⟩
  | succ fuel ih =>
    intro db cons cum offset hu hc
    unfold TotDb.mergeBalancedRec
    split
    · exact ⟨rfl, hu⟩
    · exact ⟨hc _ (by simp), hu⟩
    · simp only
      refine mergeCons_unlimited ?_ ?_ ?_
      · exact (ih _ _ _ _ (ih _ _ _ _ hu fun c h => hc c (List.mem_of_mem_take h)).2 fun c h => hc c (List.mem_of_mem_drop h)).2
      · exact (ih _ _ _ _ hu fun c h => hc c (List.mem_of_mem_take h)).1
      · exact (ih _ _ _ _ (ih _ _ _ _ hu fun c h => hc c (List.mem_of_mem_take h)).2 fun c h => hc c (List.mem_of_mem_drop h)).1

theorem Unlimited.mergeBalanced {db : Db} {cons : List NodeCon} (hu : Unlimited db) (hc : ∀ c ∈ cons, c.lenLimit = none) :
    Unlimited (mergeBalanced db cons).2 ∧ ∀ c, (TotDb.mergeBalanced db cons).1 = some c → c.lenLimit = none := by
  unfold TotDb.mergeBalanced
  split
  · exact ⟨hu, fun c h => by cases h⟩
  · obtain ⟨h1, h2⟩ := Unlimited.mergeBalancedRec cons.length db cons (cumWeight db 0 cons) 0 hu hc
    exact ⟨h2, fun c h => by cases h; exact h1⟩

theorem Unlimited.segTrees : ∀ (segs : List (List (Lit × Nat))) (db : Db) (cons : List NodeCon) (db' : Db), Unlimited db →
    segTrees db segs = some (cons, db') → Unlimited db' ∧ ∀ c ∈ cons, c.lenLimit = none := by
  intro segs
  induction segs with
  | nil => intro db cons db' hu h; cases h; exact ⟨hu, fun c h => by cases h⟩
  | cons seg segs ih =>
    intro db cons db' hu h
    unfold TotDb.segTrees at h
    simp only at h
    cases h1 : (TotDb.litTree db (seg.map (·.1))).1 with
    | none => rw [h1] at h; cases h
    | some id =>
      rw [h1] at h
      simp only at h
      split at h
      · cases h
      · cases h2 : TotDb.segTrees (TotDb.litTree db (seg.map (·.1))).2 segs with
        | none => rw [h2] at h; cases h
        | some r =>
          obtain ⟨cs, db1⟩ := r
          rw [h2] at h
          cases h
          obtain ⟨u1, u2⟩ := ih _ _ _ (hu.litTree _) h2
          refine ⟨u1, fun c h => ?_⟩
          rcases List.mem_cons.1 h with rfl | h
          · rfl
          · exact u2 c h

end TotDb
end RustSat
