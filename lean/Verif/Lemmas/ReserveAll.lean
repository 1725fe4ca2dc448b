import Verif.Lemmas.Reserve
import Verif.Lemmas.Weighted
/-
`reserve_vars` allocates all variables that encoding needs.
-/
namespace RustSat
namespace TotDb

/-- The values of a node that a connection (without limit) transmits. -/
def Cov (c : NodeCon) (v : Nat) : Prop := c.offset ≤ v ∧ (v - c.offset) % c.divisor = 0

/-- No connection limits the number of literals. -/
def Unlimited (db : Db) : Prop := ∀ i l r, (db.node i).shape = .inner l r → l.lenLimit = none ∧ r.lenLimit = none

theorem Unlimited.ref {R : LitData → LitData → Prop} {db db' : Db} (h : DbRel R db db') (hu : Unlimited db) : Unlimited db' :=
  fun i l r hs => hu i l r (by rw [← h.shape i]; exact hs)

theorem revMap_cov {c : NodeCon} (h : c.lenLimit = none) (k : Nat) : Cov c (c.revMap k) := by
  unfold NodeCon.revMap
  rw [h]
  exact ⟨Nat.le_add_left _ _, by simp only [Nat.add_sub_cancel, Nat.mul_mod_left]⟩

/-- The connections below a connection. -/
inductive ConReach (db : Db) : NodeCon → NodeCon → Prop
  | refl (c : NodeCon) : ConReach db c c
  | left {c l r c' : NodeCon} (h : (db.node c.id).shape = .inner l r) (h' : ConReach db l c') : ConReach db c c'
  | right {c l r c' : NodeCon} (h : (db.node c.id).shape = .inner l r) (h' : ConReach db r c') : ConReach db c c'

theorem ConReach.trans {db : Db} {a b c : NodeCon} (h : ConReach db a b) (h' : ConReach db b c) : ConReach db a c := by
  induction h with
  | refl => exact h'
  | left h _ ih => exact .left h (ih h')
  | right h _ ih => exact .right h (ih h')

theorem ConReach.congr {db db' : Db} (hs : ∀ i, (db'.node i).shape = (db.node i).shape) {a b : NodeCon} (h : ConReach db a b) :
    ConReach db' a b := by
  induction h with
  | refl => exact .refl _
  | left h _ ih => exact .left ((hs _).trans h) ih
  | right h _ ih => exact .right ((hs _).trans h) ih

/-- The outputs that are needed for a connection. -/
def Needed (db : Db) (c : NodeCon) (i v : Nat) : Prop := ∃ c', ConReach db c c' ∧ c'.id = i ∧ Cov c' v

/-- A set of outputs that all have literals and that contains all outputs needed for outputs in it. -/
structure Closed (db : Db) (S : Nat → Nat → Prop) : Prop where
  lit : ∀ i k v d, S i v → (db.node i).outData k = some (v, d) → d ≠ .none
  unit : ∀ i v lits dp nl l r, S i v → db.node i = .unit lits dp nl l r → ∀ k, S l.id (l.revMap k) ∧ S r.id (r.revMap k)
  general : ∀ i v lits dp nl m l r, S i v → db.node i = .general lits dp nl m l r → ∀ v', S l.id v' ∧ S r.id v'

theorem Closed.ref {db db' : Db} {S : Nat → Nat → Prop} (h : DbRel LitKeep db db') (hc : Closed db S) : Closed db' S := by
  refine ⟨fun i k v d' hs hd => ?_, fun i v lits dp nl l r hs hn k => ?_, fun i v lits dp nl m l r hs hn v' => ?_⟩
  · obtain ⟨d, h1, h2⟩ := (h.node i).outData_bwd hd
    have h3 := hc.lit i k v d hs h1
    cases d with
    | none => exact absurd rfl h3
    | lit l s =>
      obtain ⟨s', e⟩ := h2 l s rfl
      rw [e]; intro h; cases h
  · have h1 := h.node i
    rw [hn] at h1
    cases hn' : db.node i with
    | unit lits' dp' nl' l' r' =>
      rw [hn'] at h1
      obtain ⟨-, -, rfl, rfl, -⟩ := h1
      exact hc.unit i v _ _ _ _ _ hs hn' k
    | leaf => rw [hn'] at h1; cases h1
    | dummy => rw [hn'] at h1; cases h1
    | general => rw [hn'] at h1; cases h1
  · have h1 := h.node i
    rw [hn] at h1
    cases hn' : db.node i with
    | general lits' dp' nl' m' l' r' =>
      rw [hn'] at h1
      obtain ⟨-, -, -, rfl, rfl, -⟩ := h1
      exact hc.general i v _ _ _ _ _ _ hs hn' v'
    | leaf => rw [hn'] at h1; cases h1
    | dummy => rw [hn'] at h1; cases h1
    | unit => rw [hn'] at h1; cases h1

theorem keep_refl (db : Db) : DbRel LitKeep db db := ⟨rfl, rfl, rfl, fun _ => NodeRel.refl (fun _ l s h => ⟨s, h⟩) _⟩

theorem keep_trans {a b c : Db} (h1 : DbRel LitKeep a b) (h2 : DbRel LitKeep b c) : DbRel LitKeep a c :=
  ⟨h2.len.trans h1.len, h2.lookup.trans h1.lookup, h2.dummy.trans h1.dummy, fun i =>
    NodeRel.trans (fun _ _ _ h h' l s e => (h l s e).elim fun t ht => h' l t ht) (h1.node i) (h2.node i)⟩

theorem DbRef.toKeep {a b : Db} (h : DbRef a b) : DbRel LitKeep a b := h.mono fun _ _ => keep_of_ref

/-! ### Reserving -/

variable {VM : Type} [ManageVars VM]

theorem outData_outLit {db : Db} {id k v : Nat} {d : LitData} (h : (db.node id).outData k = some (v, d)) :
    db.outLit id k = some d := by
  unfold Db.outLit
  cases hn : db.node id with
  | leaf => rw [hn] at h; cases h
  | dummy => rw [hn] at h; cases h
  | unit lits =>
    rw [hn] at h
    simp only [Node.outData, Option.map_eq_some_iff] at h
    obtain ⟨x, hx, e⟩ := h
    cases e
    exact hx
  | general lits =>
    rw [hn] at h
    simp only [Node.outData] at h
    simp only
    rw [h]; rfl

theorem outLit_keep {db db' : Db} (h : DbRel LitKeep db db') {id k : Nat} (hn : db.outLit id k ≠ some .none) :
    db'.outLit id k ≠ some .none := by
  intro h'
  obtain ⟨v, hv⟩ := outLit_outData h'
  obtain ⟨d, h1, h2⟩ := (h.node id).outData_bwd hv
  cases d with
  | none => exact hn (outData_outLit h1)
  | lit l s => obtain ⟨s', e⟩ := h2 l s rfl; cases e

theorem reserveOut_out [LawfulVM VM] (st : St VM) (id k : Nat) : (reserveOut st id k).db.outLit id k ≠ some .none := by
  unfold reserveOut
  cases h : st.db.outLit id k with
  | none => simp only; rw [h]; intro h; cases h
  | some d =>
    cases d with
    | lit => simp only; rw [h]; intro h; cases h
    | none =>
      obtain ⟨v, hv⟩ := outLit_outData h
      simp only
      rw [outData_outLit (setOut_upd hv (LitRef.none _)).new]
      intro h
      cases h

theorem reserveOuts_out [LawfulVM VM] (id : Nat) : ∀ (ks : List Nat) (st : St VM), st.db.WF →
    ∀ k ∈ ks, (reserveOuts st id ks).db.outLit id k ≠ some .none := by
  intro ks
  induction ks with
  | nil => intro st _ k hk; cases hk
  | cons k ks ih =>
    intro st hw k' hk
    have h1 := reserveOut_step st hw id k
    have hw1 := h1.1.ref.wf hw
    obtain rfl | hk := List.mem_cons.1 hk
    · exact outLit_keep (reserveOuts_step id ks (reserveOut st id k') hw1).1.ref.toKeep (reserveOut_out st id k')
    · exact ih _ hw1 k' hk

theorem conIdxs_cov {db : Db} {c : NodeCon} (hl : c.lenLimit = none) (hd : (db.node c.id).isGeneral = true → c.divisor = 1)
    {ks : List Nat} (he : conIdxs db c = some ks) {k v : Nat} {d : LitData} (ho : (db.node c.id).outData k = some (v, d))
    (hv : Cov c v) : k ∈ ks := by
  unfold conIdxs at he
  obtain ⟨h1, h2⟩ := hv
  by_cases h : c.divisor = 1
  · simp only [h, if_true, hl] at he
    cases hn : db.node c.id with
    | leaf => rw [hn] at ho; cases ho
    | dummy => rw [hn] at ho; cases ho
    | unit lits dp nl l r =>
      rw [hn] at ho he
      simp only [Node.outData, Option.map_eq_some_iff] at ho
      obtain ⟨x, hx, e⟩ := ho
      cases e
      have hk : k < lits.length := (List.getElem?_eq_some_iff.1 hx).1
      unfold Node.fromIdxs at he
      simp only at he
      split at he
      · cases he
        rw [List.mem_range'_1]
        omega
      · cases he
    | general lits dp nl m l r =>
      rw [hn] at ho he
      simp only [Node.outData] at ho
      have hk : k < lits.length := (List.getElem?_eq_some_iff.1 ho).1
      simp only [Node.fromIdxs] at he
      cases he
      rw [List.mem_filter, List.mem_range]
      refine ⟨hk, decide_eq_true ?_⟩
      rw [List.getD_eq_getElem?_getD, List.getElem?_map, ho]
      exact h1
  · simp only [if_neg h] at he
    cases he
    cases hn : db.node c.id with
    | leaf => rw [hn] at ho; cases ho
    | dummy => rw [hn] at ho; cases ho
    | general => rw [hn] at hd; exact absurd (hd rfl) h
    | unit lits dp nl l r =>
      rw [hn] at ho
      simp only [Node.outData, Option.map_eq_some_iff] at ho
      obtain ⟨x, hx, e⟩ := ho
      cases e
      have hk : k < lits.length := (List.getElem?_eq_some_iff.1 hx).1
      refine List.mem_flatMap.2 ⟨k + 1, ?_, by simp [Node.valIdxs]⟩
      unfold stepVals
      rw [List.mem_filter, List.mem_range]
      refine ⟨by show k + 1 < lits.length + 1; omega, ?_⟩
      simp only [Bool.and_eq_true, decide_eq_true_eq, beq_iff_eq]
      exact ⟨h1, h2⟩

/-- Everything needed gets a variable. -/
theorem reserveVars_all [LawfulVM VM] : ∀ (fuel : Nat) (st : St VM) (c : NodeCon) (st' : St VM), st.db.WF → Unlimited st.db →
    c.lenLimit = none → ((st.db.node c.id).isGeneral = true → c.divisor = 1) → reserveVars fuel st c = some st' →
    DbRef st.db st'.db ∧ ∀ i v, Needed st.db c i v → ∀ k d, (st'.db.node i).outData k = some (v, d) → d ≠ .none := by
  intro fuel
  induction fuel with
  | zero => intro st c st' _ _ _ _ h; cases h
  | succ fuel ih =>
    intro st c st' hw hu hl hd h
    have base : (∀ l r, (st.db.node c.id).shape ≠ .inner l r) → st' = st →
        (DbRef st.db st'.db ∧ ∀ i v, Needed st.db c i v → ∀ k d, (st'.db.node i).outData k = some (v, d) → d ≠ .none) := by
      rintro hno rfl
      refine ⟨DbRef.refl _, ?_⟩
      rintro i v ⟨c', hr, rfl, -⟩ k d ho
      cases hr with
      | refl =>
        exfalso
        cases hn : st'.db.node c.id with
        | leaf => rw [hn] at ho; cases ho
        | dummy => rw [hn] at ho; cases ho
        | unit _ _ _ l r => exact hno l r (by rw [hn]; rfl)
        | general _ _ _ _ l r => exact hno l r (by rw [hn]; rfl)
      | left h _ => exact absurd h (hno _ _)
      | right h _ => exact absurd h (hno _ _)
    have inner : ∀ l r, (st.db.node c.id).shape = .inner l r → ((st.db.node l.id).isGeneral = true → l.divisor = 1) →
        ((st.db.node r.id).isGeneral = true → r.divisor = 1) →
        (match reserveVars fuel st l with
          | none => none
          | some st =>
            match reserveVars fuel st r with
            | none => none
            | some st =>
              match conIdxs st.db c with
              | none => none
              | some ks => some (reserveOuts st c.id ks)) = some st' →
        (DbRef st.db st'.db ∧ ∀ i v, Needed st.db c i v → ∀ k d, (st'.db.node i).outData k = some (v, d) → d ≠ .none) := by
      intro l r hs hgl hgr h
      obtain ⟨ul, ur⟩ := hu _ _ _ hs
      cases h1 : reserveVars fuel st l with
      | none => rw [h1] at h; cases h
      | some st1 =>
        rw [h1] at h
        simp only at h
        obtain ⟨r1, a1⟩ := ih st l st1 hw hu ul hgl h1
        have hw1 := r1.wf hw
        cases h2 : reserveVars fuel st1 r with
        | none => rw [h2] at h; cases h
        | some st2 =>
          rw [h2] at h
          simp only at h
          obtain ⟨r2, a2⟩ := ih st1 r st2 hw1 (hu.ref r1) ur (by rw [(r1.node r.id).isGeneral]; exact hgr) h2
          have hw2 := r2.wf hw1
          cases h3 : conIdxs st2.db c with
          | none => rw [h3] at h; cases h
          | some ks =>
            rw [h3] at h
            cases h
            obtain ⟨s3, -, -⟩ := reserveOuts_step c.id ks st2 hw2
            refine ⟨(r1.trans r2).trans s3.ref, ?_⟩
            have later : ∀ {db1 db2 : Db}, DbRef db1 db2 → ∀ i v, (∀ k d, (db1.node i).outData k = some (v, d) → d ≠ .none) →
                ∀ k d, (db2.node i).outData k = some (v, d) → d ≠ .none := by
              intro db1 db2 hr i v hall k d ho
              obtain ⟨d0, o1, o2⟩ := (hr.node i).outData_bwd ho
              cases d0 with
              | none => exact absurd rfl (hall k _ o1)
              | lit l s => obtain ⟨s', e⟩ := o2.keep l s rfl; rw [e]; intro h; cases h
            rintro i v ⟨c', hr, rfl, hcov⟩
            cases hr with
            | refl =>
              intro k d ho hnone
              subst hnone
              obtain ⟨d0, o1, -⟩ := (s3.ref.node c.id).outData_bwd ho
              have hk := conIdxs_cov hl (by rw [((r1.trans r2).node c.id).isGeneral]; exact hd) h3 o1 hcov
              exact reserveOuts_out c.id ks st2 hw2 k hk (outData_outLit ho)
            | left hs' hr' =>
              rw [hs] at hs'
              cases hs'
              exact later (r2.trans s3.ref) _ v (a1 _ v ⟨c', hr', rfl, hcov⟩)
            | right hs' hr' =>
              rw [hs] at hs'
              cases hs'
              exact later s3.ref _ v (a2 _ v ⟨c', hr'.congr r1.shape, rfl, hcov⟩)
    unfold reserveVars at h
    cases hn : st.db.node c.id with
    | leaf => rw [hn] at h base; cases h; exact base (fun _ _ h => by cases h) rfl
    | dummy => rw [hn] at h base; cases h; exact base (fun _ _ h => by cases h) rfl
    | unit lits dp nl l r =>
      have hok := hw.nodes c.id _ (Db.getElem?_node (Db.node_lt (by rw [hn]; intro h; cases h)))
      rw [hn] at hok
      rw [hn] at h
      exact inner l r (by rw [hn]; rfl) (by rw [hok.2.2.1.notGeneral]; intro h; cases h) (by rw [hok.2.2.2.1.notGeneral]; intro h; cases h) h
    | general lits dp nl m l r =>
      have hok := hw.nodes c.id _ (Db.getElem?_node (Db.node_lt (by rw [hn]; intro h; cases h)))
      rw [hn] at hok
      rw [hn] at h
      exact inner l r (by rw [hn]; rfl) (fun _ => hok.2.2.1.divisor) (fun _ => hok.2.2.2.1.divisor) h

/-- After reserving, a closed set of outputs has literals. -/
theorem reserveVars_closed [LawfulVM VM] {fuel : Nat} {st st' : St VM} {c : NodeCon} (hw : st.db.WF) (hu : Unlimited st.db)
    (hl : c.lenLimit = none) (hd : (st.db.node c.id).isGeneral = true → c.divisor = 1) (h : reserveVars fuel st c = some st') :
    DbRef st.db st'.db ∧ Closed st'.db (Needed st.db c) := by
  obtain ⟨hr, ha⟩ := reserveVars_all fuel st c st' hw hu hl hd h
  refine ⟨hr, fun i k v d hs ho => ha i v hs k d ho, fun i v lits dp nl l r hs hn k => ?_, fun i v lits dp nl m l r hs hn v' => ?_⟩
  · obtain ⟨c', h1, rfl, -⟩ := hs
    have hsh : (st.db.node c'.id).shape = .inner l r := by rw [← hr.shape, hn]; rfl
    obtain ⟨u1, u2⟩ := hu _ _ _ hsh
    exact ⟨⟨l, h1.trans (.left hsh (.refl _)), rfl, revMap_cov u1 k⟩, ⟨r, h1.trans (.right hsh (.refl _)), rfl, revMap_cov u2 k⟩⟩
  · obtain ⟨c', h1, rfl, -⟩ := hs
    have hsh : (st.db.node c'.id).shape = .inner l r := by rw [← hr.shape, hn]; rfl
    have hw' := hr.wf hw
    have hok := hw'.nodes c'.id _ (Db.getElem?_node (Db.node_lt (by rw [hn]; intro h; cases h)))
    rw [hn] at hok
    have hcov : ∀ c, PlainCon st'.db c → Cov c v' := fun c hc => ⟨by rw [hc.offset]; exact Nat.zero_le _, by rw [hc.divisor]; exact Nat.mod_one _⟩
    exact ⟨⟨l, h1.trans (.left hsh (.refl _)), rfl, hcov l hok.2.2.1⟩, ⟨r, h1.trans (.right hsh (.refl _)), rfl, hcov r hok.2.2.2.1⟩⟩

/-! ### Encoding -/

/-- The variable manager is not used, and literals are kept. -/
def Quiet (st st' : St VM) : Prop := st'.vm = st.vm ∧ DbRel LitKeep st.db st'.db

theorem Quiet.refl (st : St VM) : Quiet st st := ⟨rfl, keep_refl _⟩

theorem Quiet.trans {a b c : St VM} (h1 : Quiet a b) (h2 : Quiet b c) : Quiet a c := ⟨h2.1.trans h1.1, keep_trans h1.2 h2.2⟩

theorem Quiet.clause {st st' : St VM} (h : Quiet st st') (c : Clause) : Quiet st (addClause st' c) := h

theorem unitData_outData {db : Db} {id idx : Nat} {d : LitData} (h : db.unitData id idx = some d) :
    (db.node id).outData idx = some (idx + 1, d) := by
  unfold Db.unitData at h
  cases hn : db.node id with
  | unit lits => rw [hn] at h; simp only at h; simp only [Node.outData, h, Option.map_some]
  | leaf => rw [hn] at h; cases h
  | dummy => rw [hn] at h; cases h
  | general => rw [hn] at h; cases h

theorem setUnit_keep {db : Db} {id idx : Nat} {d : LitData} (h : db.unitData id idx = some d) (hd : d ≠ .none) (sem : Semantics) :
    DbRel LitKeep db (db.setUnit id idx (d.addSemantics sem)) := by
  unfold Db.unitData at h
  cases hn : db.node id with
  | unit lits dp nl l r =>
    rw [hn] at h
    cases d with
    | none => exact absurd rfl hd
    | lit l s => exact (setUnit_upd hn h (LitRef.add _ _ _)).ref.toKeep
  | leaf => rw [hn] at h; cases h
  | dummy => rw [hn] at h; cases h
  | general => rw [hn] at h; cases h

variable {S : Nat → Nat → Prop}

theorem getOlit_quiet {st st' : St VM} {id idx : Nat} {l : Lit} (hc : Closed st.db S) (hs : S id (idx + 1))
    (h : getOlit st id idx = some (l, st')) : st' = st := by
  unfold getOlit at h
  cases hu : st.db.unitData id idx with
  | none => rw [hu] at h; cases h
  | some d =>
    rw [hu] at h
    cases d with
    | none => exact absurd rfl (hc.lit _ _ _ _ hs (unitData_outData hu))
    | lit l s => cases h; rfl

theorem encodeUnweighted_quiet {st st' : St VM} {id idx : Nat} {l : Lit} {sem : Semantics} {p : Pre} (hc : Closed st.db S)
    (hs : S id (idx + 1)) (h : encodeUnweighted st id idx l sem p = some st') : Quiet st st' := by
  unfold encodeUnweighted at h
  cases hu : st.db.unitData id idx with
  | none => rw [hu] at h; cases h
  | some d =>
    rw [hu] at h
    simp only at h
    cases hm : d.missingSemantics sem with
    | none => rw [hm] at h; cases h
    | some m =>
      rw [hm] at h
      simp only at h
      split at h
      · split at h
        · cases h; exact ⟨rfl, setUnit_keep hu (hc.lit _ _ _ _ hs (unitData_outData hu)) _⟩
        · cases h
      · cases h

theorem conIdx_succ {c : NodeCon} {k : Nat} (h : c.divisor ≠ 0) (hm : c.multiplier = 1) (hl : c.lenLimit = none) :
    conIdx k c + 1 = c.revMap (k + 1) := by
  unfold conIdx NodeCon.revMap
  rw [hl, hm]
  simp only [Nat.div_one]
  have : 1 ≤ (k + 1) * c.divisor := Nat.mul_pos (Nat.succ_pos k) (Nat.pos_of_ne_zero h)
  omega

theorem defineUnweighted_quiet : ∀ (fuel : Nat) (st : St VM) (id idx : Nat) (sem : Semantics) (l : Lit) (st' : St VM), st.db.WF →
    Unlimited st.db → Closed st.db S → S id (idx + 1) → defineUnweighted fuel st id idx sem = some (l, st') → Quiet st st' := by
  intro fuel
  induction fuel with
  | zero => intro st id idx sem l st' _ _ _ _ h; cases h
  | succ fuel ih =>
    intro st id idx sem l st' hw hul hc hs h
    have ih' : ∀ st1 : St VM, Quiet st st1 → ∀ (id idx : Nat) (sem : Semantics) (l : Lit) (st' : St VM), S id (idx + 1) →
        defineUnweighted fuel st1 id idx sem = some (l, st') → Quiet st1 st' := fun st1 hq id idx sem l st' hs h =>
      ih st1 id idx sem l st' (hq.2.wf hw) (hul.ref hq.2) (hc.ref hq.2) hs h
    have hcon : ∀ lits dp nl lc rc, st.db.node id = .unit lits dp nl lc rc →
        ∀ k, S lc.id (conIdx k lc + 1) ∧ S rc.id (conIdx k rc + 1) := by
      intro lits dp nl lc rc hn k
      have hok := hw.nodes id _ (Db.getElem?_node (Db.node_lt (by rw [hn]; intro h; cases h)))
      rw [hn] at hok
      obtain ⟨u1, u2⟩ := hul id lc rc (by rw [hn]; rfl)
      obtain ⟨-, -, c1, c2, -⟩ := hok
      rw [conIdx_succ (Nat.pos_iff_ne_zero.1 c1.wf.div) c1.mult u1, conIdx_succ (Nat.pos_iff_ne_zero.1 c2.wf.div) c2.mult u2]
      exact hc.unit id _ _ _ _ _ _ hs hn (k + 1)
    have hpre : ∀ o, precond st.db id idx sem = o → (∀ con, o = .pass con → S con.id (conIdx idx con + 1)) ∧
        ∀ p, o = .cont p → ∀ k, S p.lcon.id (conIdx k p.lcon + 1) ∧ S p.rcon.id (conIdx k p.rcon + 1) := by
      intro o ho
      subst ho
      unfold precond
      cases hn : st.db.node id with
      | unit lits dp nl lc rc =>
        simp only
        cases lits[idx]? with
        | none => exact ⟨fun _ h => (by cases h), fun _ h => (by cases h)⟩
        | some d =>
          simp only
          split
          · split <;> exact ⟨fun _ h => (by cases h), fun _ h => (by cases h)⟩
          · split
            · refine ⟨fun con h => ?_, fun _ h => (by cases h)⟩
              cases h
              split
              · exact (hcon _ _ _ _ _ hn idx).2
              · exact (hcon _ _ _ _ _ hn idx).1
            · refine ⟨fun _ h => (by cases h), fun p h => ?_⟩
              cases h
              exact hcon _ _ _ _ _ hn
      | _ => exact ⟨fun _ h => (by cases h), fun _ h => (by cases h)⟩
    unfold defineUnweighted at h
    cases hp : precond st.db id idx sem with
    | panic => rw [hp] at h; cases h
    | ret x => rw [hp] at h; cases h; exact Quiet.refl _
    | pass con =>
      rw [hp] at h
      simp only at h
      have hci := (hpre _ hp).1 con rfl
      cases h1 : defineUnweighted fuel st con.id (conIdx idx con) sem with
      | none => rw [h1] at h; cases h
      | some r =>
        obtain ⟨x, st1⟩ := r
        rw [h1] at h
        simp only at h
        have f1 := ih' st (Quiet.refl _) _ _ _ _ _ hci h1
        cases h2 : getOlit st1 id idx with
        | none => rw [h2] at h; cases h
        | some r =>
          obtain ⟨y, st2⟩ := r
          rw [h2] at h
          simp only at h
          obtain rfl := getOlit_quiet (hc.ref f1.2) hs h2
          cases h3 : st2.db.unitData id idx with
          | none => rw [h3] at h; cases h
          | some d =>
            rw [h3] at h
            cases h
            exact ⟨f1.1, keep_trans f1.2 (setUnit_keep h3 ((hc.ref f1.2).lit _ _ _ _ hs (unitData_outData h3)) _)⟩
    | cont p =>
      rw [hp] at h
      simp only at h
      have hci := (hpre _ hp).2 p rfl
      cases h1 : runRequests (fun st id idx sem => defineUnweighted fuel st id idx sem) (requests st.db p) st with
      | none => rw [h1] at h; cases h
      | some st1 =>
        rw [h1] at h
        simp only at h
        have hreq : ∀ q ∈ requests st.db p, S q.1 (q.2.1 + 1) := by
          intro q hq
          unfold requests at hq
          simp only [List.mem_append, List.mem_map] at hq
          rcases hq with ((⟨_, _, rfl⟩ | ⟨_, _, rfl⟩) | ⟨_, _, rfl⟩) | ⟨_, _, rfl⟩
          · exact (hci _).1
          · exact (hci _).2
          · exact (hci _).1
          · exact (hci _).2
        have f1 : Quiet st st1 := by
          have : ∀ (reqs : List (Nat × Nat × Semantics)) (st1 st2 : St VM), Quiet st st1 → (∀ q ∈ reqs, S q.1 (q.2.1 + 1)) →
              runRequests (fun st id idx sem => defineUnweighted fuel st id idx sem) reqs st1 = some st2 → Quiet st st2 := by
            intro reqs
            induction reqs with
            | nil => intro st1 st2 hq _ h; cases h; exact hq
            | cons q reqs ihr =>
              intro st1 st2 hq hqs h
              obtain ⟨i, j, sm⟩ := q
              unfold runRequests at h
              cases h1 : defineUnweighted fuel st1 i j sm with
              | none => rw [h1] at h; cases h
              | some r =>
                obtain ⟨x, st3⟩ := r
                rw [h1] at h
                exact ihr st3 st2 (hq.trans (ih' st1 hq i j sm x st3 (hqs (i, j, sm) (by simp)) h1)) (fun q hq' => hqs q (by simp [hq'])) h
          exact this _ _ _ (Quiet.refl _) hreq h1
        cases h2 : getOlit st1 id idx with
        | none => rw [h2] at h; cases h
        | some r =>
          obtain ⟨y, st2⟩ := r
          rw [h2] at h
          simp only at h
          obtain rfl := getOlit_quiet (hc.ref f1.2) hs h2
          cases h3 : encodeUnweighted st2 id idx y sem p with
          | none => rw [h3] at h; cases h
          | some st3 =>
            rw [h3] at h
            cases h
            exact f1.trans (encodeUnweighted_quiet (hc.ref f1.2) hs h3)

theorem define_quiet {st st' : St VM} {id idx : Nat} {sem : Semantics} {l : Lit} (hw : st.db.WF) (hu : Unlimited st.db) (hc : Closed st.db S)
    (hs : S id (idx + 1)) (h : define st id idx sem = some (l, st')) : Quiet st st' :=
  defineUnweighted_quiet _ _ _ _ _ _ _ hw hu hc hs h

theorem defineAll_quiet {id : Nat} {sem : Semantics} : ∀ (idxs : List Nat) (st st' : St VM), st.db.WF → Unlimited st.db → Closed st.db S →
    (∀ idx ∈ idxs, S id (idx + 1)) → defineAll st id sem idxs = some st' → Quiet st st' := by
  intro idxs
  induction idxs with
  | nil => intro st st' _ _ _ _ h; cases h; exact Quiet.refl _
  | cons idx idxs ih =>
    intro st st' hw hu hc hs h
    unfold defineAll at h
    cases h1 : define st id idx sem with
    | none => rw [h1] at h; cases h
    | some r =>
      rw [h1] at h
      have h2 := define_quiet hw hu hc (hs idx (by simp)) h1
      exact h2.trans (ih _ _ (h2.2.wf hw) (hu.ref h2.2) (hc.ref h2.2) (fun i hi => hs i (by simp [hi])) h)

/-! ### Encoding weighted outputs -/

theorem weightedOlit_quiet {st st' : St VM} {id k v : Nat} {l : Lit} (hc : Closed st.db S) (hs : S id v) {d : LitData}
    (hd : (st.db.node id).outData k = some (v, d)) (h : weightedOlit st id k = some (l, st')) : st' = st := by
  unfold weightedOlit at h
  rw [outData_outLit hd] at h
  cases d with
  | none => exact absurd rfl (hc.lit _ _ _ _ hs hd)
  | lit l s => cases h; rfl

theorem sumLoop_quiet {f : St VM → Nat → Nat → Option (Option Lit × St VM)} {st0 : St VM}
    {lcon rcon : NodeCon} (hf : ∀ st, Quiet st0 st → ∀ i v o st', i = lcon.id ∨ i = rcon.id → f st i v = some (o, st') → Quiet st st')
    {rmax val : Nat} {olit : Lit} : ∀ (lvals : List Nat) (st st' : St VM), Quiet st0 st →
    sumLoop f lcon rcon rmax val olit lvals st = some st' → Quiet st0 st' := by
  intro lvals
  induction lvals with
  | nil => intro st st' hq h; cases h; exact hq
  | cons lval lvals ih =>
    intro st st' hq h
    unfold sumLoop at h
    simp only at h
    split at h
    · cases h1 : f st rcon.id (rcon.revMap (val - lcon.map lval)) with
      | none => rw [h1] at h; cases h
      | some r =>
        obtain ⟨o, st1⟩ := r
        rw [h1] at h
        have q1 := hq.trans (hf st hq _ _ _ _ (.inr rfl) h1)
        cases o with
        | none => exact ih _ _ q1 h
        | some rlit =>
          simp only at h
          cases h2 : f st1 lcon.id lval with
          | none => rw [h2] at h; cases h
          | some r =>
            obtain ⟨o, st2⟩ := r
            rw [h2] at h
            have q2 := q1.trans (hf st1 q1 _ _ _ _ (.inl rfl) h2)
            cases o with
            | none => cases h
            | some llit => exact ih _ _ (q2.clause _) h
    · exact ih _ _ hq h

theorem propagateVal_quiet {f : St VM → Nat → Nat → Option (Option Lit × St VM)} {st0 st st' : St VM} {con : NodeCon} (hq : Quiet st0 st)
    (hf : ∀ st, Quiet st0 st → ∀ v o st', f st con.id v = some (o, st') → Quiet st st')
    {val : Nat} {olit : Lit} (h : propagateVal f con val olit st = some st') : Quiet st0 st' := by
  unfold propagateVal at h
  split at h
  · cases h1 : f st con.id (con.revMap val) with
    | none => rw [h1] at h; cases h
    | some r =>
      obtain ⟨o, st1⟩ := r
      rw [h1] at h
      have q1 := hq.trans (hf st hq _ _ _ h1)
      cases o with
      | none => cases h; exact q1
      | some l => cases h; exact q1.clause _
  · cases h; exact hq

theorem valIdx_outData {db : Db} {id : Nat} {lits : List (Nat × LitData)} {dp nl m : Nat} {l r : NodeCon}
    (hn : db.node id = .general lits dp nl m l r) {val k : Nat} (h : valIdx lits val = some k) :
    ∃ d, (db.node id).outData k = some (val, d) := by
  unfold valIdx at h
  obtain ⟨hk, h1, -⟩ := List.findIdx?_eq_some_iff_getElem.1 h
  rw [hn]
  refine ⟨lits[k].2, ?_⟩
  show lits[k]? = _
  rw [List.getElem?_eq_getElem hk, ← eq_of_beq h1]

theorem defineWeighted_quiet : ∀ (fuel : Nat) (st : St VM) (id val : Nat) (o : Option Lit) (st' : St VM), st.db.WF →
    Unlimited st.db → Closed st.db S → S id val → defineWeighted fuel st id val = some (o, st') → Quiet st st' := by
  intro fuel
  induction fuel with
  | zero => intro st id val o st' _ _ _ _ h; cases h
  | succ fuel ih =>
    intro st id val o st' hw hul hc hs h
    unfold defineWeighted at h
    cases hn : st.db.node id with
    | leaf => rw [hn] at h; cases h; exact Quiet.refl _
    | dummy => rw [hn] at h; cases h; exact Quiet.refl _
    | unit lits dp nl lc rc =>
      rw [hn] at h
      simp only at h
      split at h
      · cases h; exact Quiet.refl _
      · rename_i hv
        cases h1 : define st id (val - 1) .if_ with
        | none => rw [h1] at h; cases h
        | some r =>
          rw [h1] at h
          cases h
          exact define_quiet hw hul hc (by rw [show val - 1 + 1 = val by omega]; exact hs) h1
    | general lits dp nl m lc rc =>
      rw [hn] at h
      simp only at h
      cases hk : valIdx lits val with
      | none => rw [hk] at h; cases h; exact Quiet.refl _
      | some k =>
        rw [hk] at h
        simp only at h
        obtain ⟨d, hd⟩ := valIdx_outData hn hk
        rw [outData_outLit hd] at h
        simp only at h
        split at h
        · cases h; exact Quiet.refl _
        · cases h1 : weightedOlit st id k with
          | none => rw [h1] at h; cases h
          | some r =>
            obtain ⟨olit, st1⟩ := r
            rw [h1] at h
            simp only at h
            obtain rfl := weightedOlit_quiet hc hs hd h1
            have hgen := hc.general id val _ _ _ _ _ _ hs hn
            have hf : ∀ st, Quiet st1 st → ∀ i v o st', i = lc.id ∨ i = rc.id → defineWeighted fuel st i v = some (o, st') → Quiet st st' := by
              rintro st hq i v o st' hi he
              refine ih st i v o st' (hq.2.wf hw) (hul.ref hq.2) (hc.ref hq.2) ?_ he
              rcases hi with rfl | rfl
              · exact (hgen v).1
              · exact (hgen v).2
            cases h2 : sumLoop (defineWeighted fuel) lc rc (st1.db.node rc.id).maxVal val olit (sumVals st1.db lc val) st1 with
            | none => rw [h2] at h; cases h
            | some st2 =>
              rw [h2] at h
              simp only at h
              have q2 := sumLoop_quiet hf _ _ _ (Quiet.refl _) h2
              cases h3 : propagateVal (defineWeighted fuel) lc val olit st2 with
              | none => rw [h3] at h; cases h
              | some st3 =>
                rw [h3] at h
                simp only at h
                have q3 := propagateVal_quiet q2 (fun st hq v o st' he => hf st hq _ v o st' (.inl rfl) he) h3
                cases h4 : propagateVal (defineWeighted fuel) rc val olit st3 with
                | none => rw [h4] at h; cases h
                | some st4 =>
                  rw [h4] at h
                  simp only at h
                  have q4 := propagateVal_quiet q3 (fun st hq v o st' he => hf st hq _ v o st' (.inr rfl) he) h4
                  obtain ⟨d', hd', -⟩ := (q4.2.node id).outData_fwd hd
                  rw [outData_outLit hd'] at h
                  cases h
                  refine ⟨q4.1, keep_trans q4.2 ?_⟩
                  cases d' with
                  | none => exact absurd rfl ((hc.ref q4.2).lit _ _ _ _ hs hd')
                  | lit l s => exact (setOut_upd hd' (LitRef.add _ _ _)).ref.toKeep

theorem defineVals_quiet {id : Nat} : ∀ (vals : List Nat) (st st' : St VM), st.db.WF → Unlimited st.db → Closed st.db S →
    (∀ v ∈ vals, S id v) → defineVals st id vals = some st' → Quiet st st' := by
  intro vals
  induction vals with
  | nil => intro st st' _ _ _ _ h; cases h; exact Quiet.refl _
  | cons v vals ih =>
    intro st st' hw hu hc hs h
    unfold defineVals at h
    cases h1 : defineWeighted (id + 1) st id v with
    | none => rw [h1] at h; cases h
    | some r =>
      obtain ⟨o, st1⟩ := r
      rw [h1] at h
      have h2 := defineWeighted_quiet _ _ _ _ _ _ hw hu hc (hs v (by simp)) h1
      cases o with
      | none => cases h
      | some l => exact h2.trans (ih _ _ (h2.2.wf hw) (hu.ref h2.2) (hc.ref h2.2) (fun i hi => hs i (by simp [hi])) h)

/-! ### Databases without limits -/

theorem Unlimited.empty : Unlimited Db.empty := fun i l r h => by cases h

theorem Unlimited.push {db : Db} (hu : Unlimited db) {n : Node} (hn : ∀ l r, n.shape = .inner l r → l.lenLimit = none ∧ r.lenLimit = none)
    {lk : List (Lit × Nat)} {dm : Option Nat} : Unlimited ⟨db.nodes ++ [n], lk, dm⟩ := by
  intro i l r h
  unfold Db.node at h
  rw [List.getD_eq_getElem?_getD] at h
  by_cases h1 : i < db.nodes.length
  · rw [List.getElem?_append_left h1] at h
    exact hu i l r (by unfold Db.node; rw [List.getD_eq_getElem?_getD]; exact h)
  · rw [List.getElem?_append_right (by omega)] at h
    by_cases h2 : i - db.nodes.length = 0
    · rw [h2] at h; exact hn l r h
    · rw [List.getElem?_eq_none (by simp; omega)] at h; cases h

theorem Unlimited.insert {db : Db} (hu : Unlimited db) {n : Node} (hn : ∀ l r, n.shape = .inner l r → l.lenLimit = none ∧ r.lenLimit = none) :
    Unlimited (db.insert n).2 := by
  unfold Db.insert
  cases n with
  | leaf l =>
    simp only
    split
    · exact hu
    · exact hu.push hn
  | dummy =>
    simp only
    split
    · exact hu
    · exact hu.push hn
  | unit => exact hu.push hn
  | general => exact hu.push hn

theorem Unlimited.insert_leaf {db : Db} (hu : Unlimited db) (l : Lit) : Unlimited (db.insert (.leaf l)).2 :=
  hu.insert fun _ _ h => by cases h

theorem Unlimited.insert_internal {db : Db} (hu : Unlimited db) {l r : NodeCon} (hl : l.lenLimit = none) (hr : r.lenLimit = none) :
    Unlimited (db.insert (Node.internal l r db)).2 :=
  hu.insert fun l' r' h => by rw [internal_shape] at h; cases h; exact ⟨hl, hr⟩

theorem mergeCons_unlimited {db : Db} (hu : Unlimited db) {l r : NodeCon} (hl : l.lenLimit = none) (hr : r.lenLimit = none) :
    (mergeCons db l r).1.lenLimit = none ∧ Unlimited (mergeCons db l r).2 := by
  unfold mergeCons
  split
  · exact ⟨rfl, hu.insert_internal hl hr⟩
  · exact ⟨rfl, hu.insert_internal hl hr⟩

end TotDb
end RustSat
