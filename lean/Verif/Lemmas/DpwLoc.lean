import Verif.Lemmas.DpwEnc
/-
Local properties of the clauses of a totalizer, for increasing the precision of the watchdog: which levels of the
children of a node force its outputs, and assignments of levels to nodes making the clauses true.
-/
namespace RustSat
namespace TotDb

variable {VM : Type} [ManageVars VM]

/-- The outputs of node `j` up to level `w` that are encoded are true. -/
def LevelOK (db : Db) (b : Asg) (j w : Nat) : Prop :=
  w ≤ (db.node j).len ∧ ∀ k l, k + 1 ≤ w → HasLit db j k .if_ l → l.holds b = true

theorem LevelOK.ref {db db' : Db} (h : DbRef db db') {b : Asg} {j w : Nat} (hl : LevelOK db' b j w) : LevelOK db b j w :=
  ⟨by rw [← (h.node j).len]; exact hl.1, fun k l hk hx => hl.2 k l hk (hx.ref h)⟩

theorem LevelOK.le {db : Db} {b : Asg} {j w w' : Nat} (h : LevelOK db b j w) (hw : w' ≤ w) : LevelOK db b j w' :=
  ⟨Nat.le_trans hw h.1, fun k l hk hx => h.2 k l (Nat.le_trans hk hw) hx⟩

/-- Levels of nodes, superadditive along connections, such that exactly the outputs up to the level are true. -/
structure StrictW (db : Db) (W : Nat → Nat) (b : Asg) : Prop where
  out : ∀ i k v l, OutAt db i k v l → (l.holds b = true ↔ v ≤ W i)
  leaf : ∀ i l, db.node i = .leaf l → l.holds b = true → 1 ≤ W i
  inner : ∀ i l r, (db.node i).shape = .inner l r → l.map (W l.id) + r.map (W r.id) ≤ W i

theorem StrictW.rel {db db' : Db} {R : LitData → LitData → Prop} (hR : ∀ x y, R x y → LitKeep x y)
    (h : DbRel R db db') {W : Nat → Nat} {b : Asg} (hs : StrictW db' W b) : StrictW db W b :=
  ⟨fun i k v l ho => hs.out i k v l (ho.ref hR h), fun i l hl => hs.leaf i l (h.leaf.2 hl),
    fun i l r hsh => hs.inner i l r (by rw [h.shape]; exact hsh)⟩

theorem StrictW.ref {db db' : Db} (h : DbRef db db') {W : Nat → Nat} {b : Asg} (hs : StrictW db' W b) : StrictW db W b :=
  hs.rel (fun _ _ => keep_of_ref) h

theorem Strict.levels {db : Db} (hw : db.WF) {b : Asg} (h : Strict db b) : StrictW db (value db (trueLits b)) b := by
  refine ⟨h, fun i l hl ht => ?_, fun i l r hs => ?_⟩
  · rw [value_leaf hw hl, if_pos (show trueLits b l = true from ht)]
  · rw [value_eq hw (trueLits b) i, hs]; exact Nat.le_refl _

theorem HasLit.level {db : Db} {id idx : Nat} {sem : Semantics} {l : Lit} (hl : HasLit db id idx sem l) {W : Nat → Nat}
    {b : Asg} (hs : StrictW db W b) (hb : l.holds b = true) : idx + 1 ≤ W id := by
  rcases hl with ⟨h1, rfl⟩ | ⟨s, -, h1, -⟩
  · exact hs.leaf id l h1 hb
  · exact (hs.out id idx (idx + 1) l ⟨_, h1⟩).1 hb

/-- The encoded outputs of node `i` follow from levels of its children, where the contribution of the right child is at
most `m`. -/
def LSound (db : Db) (C : ClauseSet) (m i : Nat) : Prop :=
  ∀ lc rc, (db.node i).shape = .inner lc rc → ∀ b, ClauseSet.sat b C → ∀ wl wr, LevelOK db b lc.id wl →
    LevelOK db b rc.id wr → rc.map wr ≤ m → ∀ k l, HasLit db i k .if_ l → k + 1 ≤ lc.map wl + rc.map wr →
    l.holds b = true

theorem LSound.mono {db : Db} {C D : ClauseSet} {m i : Nat} (h : LSound db C m i) (hD : ∀ c ∈ C, c ∈ D) : LSound db D m i :=
  fun lc rc hs b hb => h lc rc hs b fun c hc => hb c (hD c hc)

/-- Clauses are added that hold for strict levels, and the local soundness of nodes is kept. -/
def LStep (st st' : St VM) : Prop :=
  ∃ new, st'.cls = st.cls ++ new ∧ (∀ W b, StrictW st'.db W b → ClauseSet.sat b new) ∧
    ∀ C m i, LSound st.db C m i → LSound st'.db (C ++ new) m i

omit [ManageVars VM] in
theorem LStep.refl (st : St VM) : LStep st st :=
  ⟨[], by simp, fun _ _ _ c hc => (by cases hc), fun C m i h => by rw [List.append_nil]; exact h⟩

omit [ManageVars VM] in
theorem LStep.trans {a b c : St VM} (h1 : LStep a b) (h2 : LStep b c) (hr : DbRef b.db c.db) : LStep a c := by
  obtain ⟨n1, e1, s1, l1⟩ := h1
  obtain ⟨n2, e2, s2, l2⟩ := h2
  refine ⟨n1 ++ n2, by rw [e2, e1, List.append_assoc], fun W x hx => ?_, fun C m i h => ?_⟩
  · rw [ClauseSet.sat_append]; exact ⟨s1 W x (hx.ref hr), s2 W x hx⟩
  · rw [← List.append_assoc]; exact l2 _ m i (l1 C m i h)

/-- An encoded output after one output was changed. -/
theorem OutUpd.hasLit {db db' : Db} {id k : Nat} {d d' : LitData} (h : OutUpd db db' id k (k + 1) d d') {i k' : Nat} {x : Lit}
    {lc rc : NodeCon} (hs : (db.node i).shape = .inner lc rc) (hx : HasLit db' i k' .if_ x) :
    HasLit db i k' .if_ x ∨ (i = id ∧ k' = k ∧ ∃ s, d' = .lit x (some s) ∧ s.hasIf = true) := by
  rcases hx with ⟨h1, -⟩ | ⟨s, h1, h2, h3, h4⟩
  · rw [h.ref.leaf.1 h1] at hs; cases hs
  · by_cases hc : i = id ∧ k' = k
    · right
      obtain ⟨rfl, rfl⟩ := hc
      have := h.new
      rw [h2] at this
      cases this
      exact ⟨rfl, rfl, s, rfl, h3 rfl⟩
    · left; right
      refine ⟨s, by rw [← (h.ref.node i).isGeneral]; exact h1, ?_, h3, h4⟩
      rw [← h.other i k' (by by_cases hi : i = id; exact Or.inr fun e => hc ⟨hi, e⟩; exact Or.inl hi)]
      exact h2

omit [ManageVars VM] in
theorem lstep_mark {st : St VM} {db' : Db} {id k : Nat} {d : LitData} {l : Lit} {s' : Option Semantics} {new : ClauseSet} {vm' : VM}
    (h : OutUpd st.db db' id k (k + 1) d (.lit l s'))
    (hIf : (LitData.lit l s').hasIf = true → ∀ lc rc, (st.db.node id).shape = .inner lc rc → ∀ b, ClauseSet.sat b new →
      ∀ wl wr, LevelOK st.db b lc.id wl → LevelOK st.db b rc.id wr → k + 1 ≤ lc.map wl + rc.map wr → l.holds b = true)
    (hsat : ∀ W b, StrictW st.db W b → ClauseSet.sat b new) :
    LStep st (⟨db', vm', st.cls ++ new⟩ : St VM) := by
  refine ⟨new, rfl, fun W b hb => hsat W b (hb.ref h.ref), fun C m i hl lc rc hs b hb wl wr h1 h2 h3 k' x hx hk => ?_⟩
  simp only at hs h1 h2 hx
  rw [h.ref.shape] at hs
  obtain ⟨hbC, hbn⟩ := (ClauseSet.sat_append _ _ _).1 hb
  rcases h.hasLit hs hx with hx | ⟨rfl, rfl, s, e, hi⟩
  · exact hl lc rc hs b hbC wl wr (h1.ref h.ref) (h2.ref h.ref) h3 k' x hx hk
  · cases e
    exact hIf hi lc rc hs b hbn wl wr (h1.ref h.ref) (h2.ref h.ref) hk

theorem con_level {db : Db} {c : NodeCon} (hc : UnitCon db c) {k : Nat} (h1 : 0 < k) (h2 : k ≤ db.conLen c) (w : Nat) :
    k ≤ c.map w ↔ conIdx (k - 1) c + 1 ≤ w := by
  have hlim : ∀ l, c.lenLimit = some l → k ≤ l := fun l hl => by
    have := NodeCon.steps_le_limit hl (db.node c.id).len
    rw [conLen_eq] at h2; omega
  have hd : 0 < k * c.divisor := Nat.mul_pos h1 hc.wf.div
  have e : conIdx (k - 1) c + 1 = k * c.divisor + c.offset := by
    unfold conIdx
    have hk : k - 1 + 1 = k := by omega
    have hm : k / c.multiplier = k := by rw [hc.mult, Nat.div_one]
    rw [hk, NodeCon.revMap_eq hc.wf (by rw [hm]; exact h1) (by rw [hm]; exact hlim), hm]
    omega
  rw [NodeCon.map_eq, hc.mult, Nat.mul_one, NodeCon.le_steps_iff hc.wf h1 hlim, e]

theorem map_le_conLen {db : Db} {c : NodeCon} (hc : UnitCon db c) {w : Nat} (hw : w ≤ (db.node c.id).len) :
    c.map w ≤ db.conLen c := by
  rw [NodeCon.map_eq, hc.mult, Nat.mul_one, conLen_eq]
  exact c.steps_mono hw

omit [ManageVars VM] in
theorem getOlit_loc {st st1 : St VM} {id idx : Nat} {l : Lit} {lits : List LitData} {dp nl : Nat} {lc rc : NodeCon}
    {d : LitData} [ManageVars VM] (hn : st.db.node id = .unit lits dp nl lc rc) (hd : lits[idx]? = some d)
    (h : getOlit st id idx = some (l, st1)) : LStep st st1 := by
  have hu : st.db.unitData id idx = some d := by unfold Db.unitData; rw [hn]; exact hd
  unfold getOlit at h
  rw [hu] at h
  cases d with
  | lit x s => simp only [Option.some.injEq, Prod.mk.injEq] at h; rw [← h.2]; exact LStep.refl _
  | none =>
    simp only [Option.some.injEq, Prod.mk.injEq] at h
    rw [← h.2]
    have := lstep_mark (VM := VM) (st := st) (new := []) (vm' := (ManageVars.newVar st.vm).2)
      (setUnit_upd hn hd (LitRef.none (Lit.pos (ManageVars.newVar st.vm).1)))
      (fun h => by cases h) (fun _ _ _ c hc => by cases hc)
    rw [List.append_nil] at this
    exact this

theorem collect_mem {α β : Type} {f : α → Option β} : ∀ {l : List α} {bs : List β}, collect f l = some bs →
    (∀ a ∈ l, ∃ b ∈ bs, f a = some b) ∧ ∀ b ∈ bs, ∃ a ∈ l, f a = some b := by
  intro l
  induction l with
  | nil => intro bs h; simp only [collect, Option.some.injEq] at h; subst h; simp
  | cons a l ih =>
    intro bs h
    simp only [collect] at h
    cases hf : f a with
    | none => rw [hf] at h; cases h
    | some b =>
      rw [hf] at h
      cases hc : collect f l with
      | none => rw [hc] at h; cases h
      | some cs =>
        rw [hc] at h
        simp only [Option.some.injEq] at h
        subst h
        obtain ⟨i1, i2⟩ := ih hc
        refine ⟨fun x hx => ?_, fun x hx => ?_⟩
        · rcases List.mem_cons.1 hx with rfl | hx
          · exact ⟨b, by simp, hf⟩
          · obtain ⟨y, hy, e⟩ := i1 x hx; exact ⟨y, by simp [hy], e⟩
        · rcases List.mem_cons.1 hx with rfl | hx
          · exact ⟨a, by simp, hf⟩
          · obtain ⟨y, hy, e⟩ := i2 x hx; exact ⟨y, by simp [hy], e⟩

/-- One "if" clause. -/
theorem ifClause_loc {db : Db} {p : Pre} {llits rlits : List LitData} {idx lval : Nat} {olit : Lit} {c : Clause}
    (hcl : UnitCon db p.lcon) (hcr : UnitCon db p.rcon)
    (hl : 0 < lval → lval ≤ db.conLen p.lcon ∧ ∃ x, HasLit db p.lcon.id (conIdx (lval - 1) p.lcon) .if_ x ∧
      sliceLit llits (conIdx (lval - 1) p.lcon) = some x)
    (hr : 0 < idx + 1 - lval → idx + 1 - lval ≤ db.conLen p.rcon ∧
      ∃ x, HasLit db p.rcon.id (conIdx (idx + 1 - lval - 1) p.rcon) .if_ x ∧
      sliceLit rlits (conIdx (idx + 1 - lval - 1) p.rcon) = some x)
    (hc : ifClause p llits rlits idx olit lval = some c) :
      (∀ b, Clause.sat b c → ∀ wl wr, LevelOK db b p.lcon.id wl → LevelOK db b p.rcon.id wr →
        lval ≤ p.lcon.map wl → idx + 1 - lval ≤ p.rcon.map wr → olit.holds b = true) ∧
      (∀ W b, StrictW db W b → (idx + 1 ≤ p.lcon.map (W p.lcon.id) + p.rcon.map (W p.rcon.id) →
        olit.holds b = true) → lval ≤ idx + 1 → Clause.sat b c) := by
  obtain ⟨L, hL, sL, tL⟩ : ∃ L, (if lval > 0 then (sliceLit llits (conIdx (lval - 1) p.lcon)).map fun l => [l]
        else some []) = some L ∧
      (∀ b wl, LevelOK db b p.lcon.id wl → lval ≤ p.lcon.map wl → ∀ x ∈ L, x.holds b = true) ∧
      (∀ W b, StrictW db W b → (∀ x ∈ L, x.holds b = true) → lval ≤ p.lcon.map (W p.lcon.id)) := by
    by_cases h0 : lval > 0
    · obtain ⟨h1, x, h2, h3⟩ := hl h0
      have g := con_level hcl h0 h1
      refine ⟨[x], by rw [if_pos h0, h3]; rfl, fun b wl hb hv y hy => ?_, fun W b hb hx => ?_⟩
      · simp only [List.mem_cons, List.not_mem_nil, or_false] at hy
        subst hy
        exact hb.2 _ _ ((g wl).1 hv) h2
      · exact (g _).2 (h2.level hb (hx x (by simp)))
    · exact ⟨[], by rw [if_neg h0], by simp, fun _ _ _ _ => by omega⟩
  obtain ⟨R, hR, sR, tR⟩ : ∃ R, (if idx + 1 - lval > 0 then
        (sliceLit rlits (conIdx (idx + 1 - lval - 1) p.rcon)).map fun l => [l] else some []) = some R ∧
      (∀ b wr, LevelOK db b p.rcon.id wr → idx + 1 - lval ≤ p.rcon.map wr → ∀ x ∈ R, x.holds b = true) ∧
      (∀ W b, StrictW db W b → (∀ x ∈ R, x.holds b = true) → idx + 1 - lval ≤ p.rcon.map (W p.rcon.id)) := by
    by_cases h0 : idx + 1 - lval > 0
    · obtain ⟨h1, x, h2, h3⟩ := hr h0
      have g := con_level hcr h0 h1
      refine ⟨[x], by rw [if_pos h0, h3]; rfl, fun b wl hb hv y hy => ?_, fun W b hb hx => ?_⟩
      · simp only [List.mem_cons, List.not_mem_nil, or_false] at hy
        subst hy
        exact hb.2 _ _ ((g wl).1 hv) h2
      · exact (g _).2 (h2.level hb (hx x (by simp)))
    · exact ⟨[], by rw [if_neg h0], by simp, fun _ _ _ _ => by omega⟩
  unfold ifClause at hc
  simp only [hL, hR, Option.some.injEq] at hc
  subst hc
  refine ⟨fun b hc wl wr h1 h2 h3 h4 => ?_, fun W b hb ho hle => ?_⟩
  · rw [sat_cubeImplLit] at hc
    refine hc fun x hx => ?_
    rcases List.mem_append.1 hx with hx | hx
    · exact sL b wl h1 h3 x hx
    · exact sR b wr h2 h4 x hx
  · rw [sat_cubeImplLit]
    intro hx
    have g1 := tL W b hb fun x h => hx x (by simp [h])
    have g2 := tR W b hb fun x h => hx x (by simp [h])
    exact ho (by omega)

/-- The clauses for one output and marking it, "if" semantics. -/
theorem encode_loc {st st' : St VM} (hw : st.db.WF) {id idx : Nat} {lits : List LitData} {dp nl : Nat}
    {lc rc : NodeCon} {olit : Lit} {s : Option Semantics} {new : Semantics}
    (hn : st.db.node id = .unit lits dp nl lc rc) (hd : lits[idx]? = some (.lit olit s))
    (hm : (LitData.lit olit s).missingSemantics .if_ = some new)
    (hdl : st.db.node lc.id ≠ .dummy) (hdr : st.db.node rc.id ≠ .dummy)
    (hreq : ∀ q ∈ requests st.db (preRanges st.db lc rc idx new), ∃ l, HasLit st.db q.1 q.2.1 q.2.2 l)
    (he : encodeUnweighted st id idx olit .if_ (preRanges st.db lc rc idx new) = some st') : LStep st st' := by
  have hid : id < st.db.nodes.length := Db.node_lt (by rw [hn]; exact fun h => by cases h)
  have hok := hw.nodes id _ (Db.getElem?_node hid)
  rw [hn] at hok
  obtain ⟨o1, o2, ucl, ucr, olen⟩ := hok
  have hi : idx < lits.length := (List.getElem?_eq_some_iff.1 hd).1
  have hu : st.db.unitData id idx = some (.lit olit s) := by unfold Db.unitData; rw [hn]; exact hd
  obtain ⟨t, ht, tIf, tOnly⟩ := addSemantics_lit olit s .if_
  obtain ⟨newIf, newOnly⟩ := missing_some hm
  have hnewO : new.hasOnlyIf = false := by
    cases hx : new.hasOnlyIf
    · rfl
    · have := (newOnly.1 hx).1; cases this
  have hnew : new.hasIf = true := by cases new <;> first | rfl | cases hnewO
  have hupd := setUnit_upd hn hd (LitRef.add olit s .if_)
  obtain ⟨llits, hll⟩ := litSlice_some hdl ucl.notGeneral
  obtain ⟨rlits, hrl⟩ := litSlice_some hdr ucr.notGeneral
  generalize hp : preRanges st.db lc rc idx new = p at hreq he
  have hpl : p.lcon = lc := by rw [← hp]; rfl
  have hpr : p.rcon = rc := by rw [← hp]; rfl
  have hlIf : p.leftIf = rangeIncl (idx + 1 - min (st.db.conLen rc) (idx + 1))
      (min (st.db.conLen lc) (idx + 1)) := by rw [← hp]; simp only [preRanges]; rw [if_pos hnew]
  have hrIf : p.rightIf = rangeIncl (idx + 1 - min (st.db.conLen lc) (idx + 1))
      (min (st.db.conLen rc) (idx + 1)) := by rw [← hp]; simp only [preRanges]; rw [if_pos hnew]
  have hlO : p.leftOnlyIf = [] := by rw [← hp]; simp only [preRanges]; rw [hnewO]; rfl
  unfold requests at hreq
  simp only [List.mem_append, List.mem_map, List.mem_filter] at hreq
  rw [hpl, hpr] at hreq
  -- the clauses
  have hIfC : ∀ lval ∈ p.leftIf, ∀ c, ifClause p llits rlits idx olit lval = some c →
      (∀ b, Clause.sat b c → ∀ wl wr, LevelOK st.db b lc.id wl → LevelOK st.db b rc.id wr →
        lval ≤ lc.map wl → idx + 1 - lval ≤ rc.map wr → olit.holds b = true) ∧
      (∀ W b, StrictW st.db W b → (idx + 1 ≤ lc.map (W lc.id) + rc.map (W rc.id) →
        olit.holds b = true) → lval ≤ idx + 1 → Clause.sat b c) := by
    intro lval hlval c hc
    have hlval' := hlval
    rw [hlIf, mem_rangeIncl] at hlval'
    have := ifClause_loc (p := p) (llits := llits) (rlits := rlits) (idx := idx) (lval := lval) (olit := olit) (db := st.db)
      (by rw [hpl]; exact ucl) (by rw [hpr]; exact ucr)
      (fun h0 => by
        rw [hpl]
        obtain ⟨x, hx⟩ := hreq (lc.id, conIdx (lval - 1) lc, .if_)
          (Or.inl (Or.inl (Or.inl ⟨lval, ⟨hlval, by simp; omega⟩, rfl⟩)))
        exact ⟨by omega, x, hx, hx.slice _ hll⟩)
      (fun h0 => by
        rw [hpr]
        obtain ⟨x, hx⟩ := hreq (rc.id, conIdx (idx + 1 - lval - 1) rc, .if_)
          (Or.inl (Or.inl (Or.inr ⟨idx + 1 - lval, ⟨by rw [hrIf, mem_rangeIncl]; omega, by simp; omega⟩, rfl⟩)))
        exact ⟨by omega, x, hx, hx.slice _ hrl⟩) hc
    rw [hpl, hpr] at this
    exact this
  rw [ht] at hupd
  unfold encodeUnweighted at he
  rw [hu] at he
  simp only [hm, ht] at he
  rw [hpl, hpr, litSlice_setUnit hn (by omega), litSlice_setUnit hn (by omega), hll, hrl, hlO] at he
  simp only [collect] at he
  cases e1 : collect (ifClause p llits rlits idx olit) p.leftIf with
  | none => rw [e1] at he; cases he
  | some c1 =>
    rw [e1] at he
    simp only [List.append_nil, Option.some.injEq] at he
    rw [← he]
    obtain ⟨f1, g1⟩ := collect_mem e1
    refine lstep_mark hupd (fun hs' lc' rc' hsh b hb wl wr h1 h2 hk => ?_) fun W b hb c hc => ?_
    · rw [hn] at hsh
      cases hsh
      have b1 := map_le_conLen ucl h1.1
      have b2 := map_le_conLen ucr h2.1
      have hmem : idx + 1 - min (rc.map wr) (idx + 1) ∈ p.leftIf := by
        rw [hlIf, mem_rangeIncl]; omega
      obtain ⟨c, hc, hcc⟩ := f1 _ hmem
      exact (hIfC _ hmem c hcc).1 b (hb c hc) wl wr h1 h2 (by omega) (by omega)
    · obtain ⟨lval, hl, e⟩ := g1 c hc
      have hout : OutAt st.db id idx (idx + 1) olit := ⟨s, by rw [hn]; simp [Node.outData, hd]⟩
      refine (hIfC lval hl c e).2 W b hb (fun h => ?_) ?_
      · exact (hb.out id idx (idx + 1) olit hout).2 (Nat.le_trans h (hb.inner id lc rc (by rw [hn]; rfl)))
      · rw [hlIf, mem_rangeIncl] at hl; omega

/-- Defining outputs with "if" semantics is local. -/
def DefLoc (f : St VM → Nat → Nat → Semantics → Option (Lit × St VM)) (bound : Nat) : Prop :=
  ∀ st id idx l st', st.db.WF → id < bound → (st.db.node id).isGeneral = false → idx < (st.db.node id).len →
    f st id idx .if_ = some (l, st') → LStep st st'

theorem runRequests_loc {f : St VM → Nat → Nat → Semantics → Option (Lit × St VM)} {bound : Nat}
    (hf : DefSpec f bound) (hl : DefLoc f bound) : ∀ (reqs : List (Nat × Nat × Semantics)) (st st' : St VM), st.db.WF →
    (∀ q ∈ reqs, q.1 < bound ∧ (st.db.node q.1).isGeneral = false ∧ q.2.1 < (st.db.node q.1).len) →
    (∀ q ∈ reqs, q.2.2 = .if_) → runRequests f reqs st = some st' → LStep st st' := by
  intro reqs
  induction reqs with
  | nil => intro st st' _ _ _ h; cases h; exact LStep.refl _
  | cons q rest ih =>
    intro st st' hw h hi hr
    obtain ⟨q1, q2, q3⟩ := q
    obtain ⟨h1, h2, h3⟩ := h (q1, q2, q3) (by simp)
    have hq : q3 = .if_ := hi (q1, q2, q3) (by simp)
    subst hq
    obtain ⟨l, st1, e1, s1, l1, n1, -⟩ := hf st q1 q2 .if_ hw h1 h2 h3
    have hpre : ∀ q ∈ rest, q.1 < bound ∧ (st1.db.node q.1).isGeneral = false ∧ q.2.1 < (st1.db.node q.1).len :=
      fun q hq => by
        obtain ⟨g1, g2, g3⟩ := h q (by simp [hq])
        exact ⟨g1, by rw [(s1.ref.node q.1).isGeneral]; exact g2, by rw [(s1.ref.node q.1).len]; exact g3⟩
    obtain ⟨st2, e2, s2, -, -⟩ := runRequests_spec hf rest st1 (s1.ref.wf hw) hpre
    simp only [runRequests, e1] at hr
    have := ih st1 st' (s1.ref.wf hw) hpre (fun q hq => hi q (by simp [hq])) hr
    rw [e2] at hr
    cases hr
    exact (hl st q1 q2 l st1 hw h1 h2 h3 e1).trans this s2.ref

theorem requests_if {db : Db} {lc rc : NodeCon} {idx : Nat} (hcl : UnitCon db lc) (hcr : UnitCon db rc) :
    ∀ q ∈ requests db (preRanges db lc rc idx .if_), q.2.2 = .if_ ∧ (q.1 = lc.id ∨ q.1 = rc.id) ∧
      (db.node q.1).isGeneral = false ∧ q.2.1 < (db.node q.1).len := by
  intro q hq
  unfold requests preRanges at hq
  simp only [List.mem_append, List.mem_map, List.mem_filter] at hq
  rcases hq with ((⟨v, ⟨hv, h0⟩, rfl⟩ | ⟨v, ⟨hv, h0⟩, rfl⟩) | ⟨v, ⟨hv, h0⟩, rfl⟩) | ⟨v, ⟨hv, h0⟩, rfl⟩
  · simp only [Semantics.hasIf, if_true, mem_rangeIncl] at hv
    simp at h0
    exact ⟨rfl, Or.inl rfl, hcl.notGeneral, (con_child hcl (k := v) (by omega) (by omega)).1⟩
  · simp only [Semantics.hasIf, if_true, mem_rangeIncl] at hv
    simp at h0
    exact ⟨rfl, Or.inr rfl, hcr.notGeneral, (con_child hcr (k := v) (by omega) (by omega)).1⟩
  · simp [Semantics.hasOnlyIf] at hv
  · simp [Semantics.hasOnlyIf] at hv

theorem missing_if {d : LitData} {new : Semantics} (h : d.missingSemantics .if_ = some new) : new = .if_ := by
  obtain ⟨n1, n2⟩ := missing_some h
  cases new with
  | if_ => rfl
  | onlyIf => have := (n2.1 rfl).1; cases this
  | iff_ => have := (n2.1 rfl).1; cases this

/-- The level of a connection to a dummy. -/
theorem dummy_level {db : Db} {c : NodeCon} (hc : UnitCon db c) (h : db.node c.id = .dummy) {b : Asg} {w : Nat}
    (hl : LevelOK db b c.id w) : c.map w = 0 := by
  have h1 := map_le_conLen hc hl.1
  have h2 : db.conLen c = 0 := by
    rw [conLen_eq, h]
    exact c.steps_zero
  omega

theorem defineUnweighted_loc [LawfulVM VM] :
    ∀ fuel, DefLoc (fun (st : St VM) id idx sem => defineUnweighted fuel st id idx sem) fuel := by
  intro fuel
  induction fuel with
  | zero => intro st id idx l st' _ h; omega
  | succ fuel ih =>
    intro st id idx x st' hw hfuel hg hidx he
    have hspec := defineUnweighted_spec (VM := VM) fuel
    cases hn : st.db.node id with
    | dummy => rw [hn] at hidx; exact absurd hidx (Nat.not_lt_zero _)
    | general => rw [hn] at hg; cases hg
    | leaf l =>
      simp only [defineUnweighted, precond, hn] at he
      cases he
      exact LStep.refl _
    | unit lits dp nl lc rc =>
      have hlen : idx < lits.length := by rw [hn] at hidx; exact hidx
      have hd := List.getElem?_eq_getElem hlen
      generalize lits[idx] = d at hd
      have hid : id < st.db.nodes.length := Db.node_lt (by rw [hn]; exact fun h => by cases h)
      have hok := hw.nodes id _ (Db.getElem?_node hid)
      rw [hn] at hok
      obtain ⟨o1, o2, ucl, ucr, olen⟩ := hok
      have hpre := precond_unit hn hd .if_
      cases hm : d.missingSemantics .if_ with
      | none =>
        obtain ⟨l, s, rfl, h1, h2⟩ := missing_none hm
        rw [hm] at hpre
        simp only [defineUnweighted, hpre] at he
        cases he
        exact LStep.refl _
      | some new =>
        have hnew := missing_if hm
        subst hnew
        rw [hm] at hpre
        simp only at hpre
        by_cases hdum : st.db.node lc.id = .dummy ∨ st.db.node rc.id = .dummy
        · rw [if_pos hdum] at hpre
          generalize hcon : (if st.db.node lc.id = .dummy then rc else lc) = con at hpre
          have hcon : con.id < id ∧ UnitCon st.db con ∧ lits.length = st.db.conLen con ∧
              (∀ db' : Db, DbRef st.db db' → ∀ b wl wr, LevelOK db' b lc.id wl → LevelOK db' b rc.id wr →
                ∃ w, LevelOK db' b con.id w ∧ lc.map wl + rc.map wr = con.map w) ∧
              ∀ W : Nat → Nat, con.map (W con.id) ≤ lc.map (W lc.id) + rc.map (W rc.id) := by
            by_cases hdl : st.db.node lc.id = .dummy
            · rw [if_pos hdl] at hcon
              subst hcon
              have := dummy_con hw hdl (fun _ => true)
              refine ⟨o2, ucr, by omega, fun db' hr b wl wr h1 h2 => ⟨wr, h2, ?_⟩, fun W => by omega⟩
              rw [dummy_level ucl hdl (h1.ref hr), Nat.zero_add]
            · rw [if_neg hdl] at hcon
              subst hcon
              have hdr : st.db.node rc.id = .dummy := by rcases hdum with h | h; exact absurd h hdl; exact h
              have := dummy_con hw hdr (fun _ => true)
              refine ⟨o1, ucl, by omega, fun db' hr b wl wr h1 h2 => ⟨wl, h1, ?_⟩, fun W => by omega⟩
              rw [dummy_level ucr hdr (h2.ref hr), Nat.add_zero]
          obtain ⟨k1, k2, k3, k4, k5⟩ := hcon
          obtain ⟨m1, -⟩ := con_child k2 (k := idx + 1) (by omega) (by omega)
          simp only [Nat.add_sub_cancel] at m1
          have hlev := con_level k2 (k := idx + 1) (by omega) (by omega)
          simp only [Nat.add_sub_cancel] at hlev
          obtain ⟨ilit, st1, e1, s1, l1, n1, -⟩ := hspec st con.id (conIdx idx con) .if_ hw (by omega) k2.notGeneral m1
          have t1 := ih st con.id (conIdx idx con) ilit st1 hw (by omega) k2.notGeneral m1 e1
          have hw1 := s1.ref.wf hw
          have hn1 : st1.db.node id = .unit lits dp nl lc rc := by rw [n1 id k1, hn]
          obtain ⟨olit, s, st2, lits2, e2, s2, hn2, hd2, hdd, n2, a2⟩ := getOlit_spec hw1 hn1 hd
          have t2 := getOlit_loc hn1 hd e2
          have hw2 := s2.ref.wf hw1
          obtain ⟨t, ht, tIf, tOnly⟩ := addSemantics_lit olit s .if_
          have hupd := setUnit_upd hn2 hd2 (LitRef.add olit s .if_)
          rw [ht] at hupd
          have hu : st2.db.unitData id idx = some (.lit olit s) := by unfold Db.unitData; rw [hn2]; exact hd2
          have l2 := l1.ref s2.ref
          have r2 := s1.ref.trans s2.ref
          have hout : OutAt st2.db id idx (idx + 1) olit := ⟨s, by rw [hn2]; simp [Node.outData, hd2]⟩
          simp only [defineUnweighted, hpre, e1, e2, hu, ht] at he
          cases he
          refine (t1.trans t2 s2.ref).trans (lstep_mark hupd (fun hs' lc' rc' hsh b hb wl wr h1 h2 hk => ?_)
            fun W b hb c hc => ?_) hupd.ref
          · rw [hn2] at hsh
            cases hsh
            obtain ⟨w, h3, h4⟩ := k4 st2.db r2 b wl wr h1 h2
            rw [h4] at hk
            have := hb _ (List.mem_cons_self ..)
            rw [Am1.sat_litImplLit] at this
            exact this (h3.2 _ _ ((hlev w).1 hk) l2)
          · simp only [List.mem_cons, List.not_mem_nil, or_false] at hc
            subst hc
            rw [Am1.sat_litImplLit]
            intro hi
            have h1 := (hlev _).2 (l2.level hb hi)
            have h2 := k5 W
            have h3 := hb.inner id lc rc (by rw [hn2]; rfl)
            exact (hb.out id idx (idx + 1) _ hout).2 (by omega)
        · rw [if_neg hdum] at hpre
          have hdl : st.db.node lc.id ≠ .dummy := fun h => hdum (Or.inl h)
          have hdr : st.db.node rc.id ≠ .dummy := fun h => hdum (Or.inr h)
          have hreq := requests_if (idx := idx) ucl ucr
          have hbd : ∀ q ∈ requests st.db (preRanges st.db lc rc idx .if_), q.1 < id ∧ (st.db.node q.1).isGeneral = false ∧
              q.2.1 < (st.db.node q.1).len := fun q hq => by
            obtain ⟨-, h1, h2, h3⟩ := hreq q hq
            refine ⟨?_, h2, h3⟩
            rcases h1 with h1 | h1 <;> rw [h1] <;> assumption
          have hspec' : DefSpec (fun (st : St VM) id idx sem => defineUnweighted fuel st id idx sem) id :=
            fun st id' idx' sem' h1 h2 h3 h4 => hspec st id' idx' sem' h1 (by omega) h3 h4
          have hloc' : DefLoc (fun (st : St VM) id idx sem => defineUnweighted fuel st id idx sem) id :=
            fun st id' idx' l' st' h1 h2 h3 h4 => ih st id' idx' l' st' h1 (by omega) h3 h4
          obtain ⟨st1, e1, s1, l1, n1⟩ := runRequests_spec hspec' _ st hw hbd
          have t1 := runRequests_loc hspec' hloc' _ st st1 hw hbd (fun q hq => (hreq q hq).1) e1
          have hw1 := s1.ref.wf hw
          have hn1 : st1.db.node id = .unit lits dp nl lc rc := by rw [n1 id (Nat.le_refl _), hn]
          obtain ⟨olit, s, st2, lits2, e2, s2, hn2, hd2, hdd, n2, a2⟩ := getOlit_spec hw1 hn1 hd
          have t2 := getOlit_loc hn1 hd e2
          have hw2 := s2.ref.wf hw1
          have r2 := s1.ref.trans s2.ref
          have hpp : preRanges st2.db lc rc idx .if_ = preRanges st.db lc rc idx .if_ := by
            unfold preRanges; rw [r2.conLen, r2.conLen]
          have hrr : requests st2.db (preRanges st.db lc rc idx .if_) = requests st.db (preRanges st.db lc rc idx .if_) := by
            unfold requests; rw [r2.conLen, r2.conLen]
          have hm2 : (LitData.lit olit s).missingSemantics .if_ = some .if_ := by
            rcases hdd with rfl | ⟨rfl, rfl⟩
            · exact hm
            · exact hm
          have hrq : ∀ q ∈ requests st2.db (preRanges st2.db lc rc idx .if_), ∃ l, HasLit st2.db q.1 q.2.1 q.2.2 l := by
            rw [hpp, hrr]
            intro q hq
            obtain ⟨l, hl⟩ := l1 q hq
            exact ⟨l, hl.ref s2.ref⟩
          obtain ⟨st3, e3, s3, l3, n3, a3⟩ := encode_spec hw2 hn2 hd2 hm2 (fun h => hdl (r2.dummy_iff.1 h))
            (fun h => hdr (r2.dummy_iff.1 h)) hrq
          have t3 := encode_loc hw2 hn2 hd2 hm2 (fun h => hdl (r2.dummy_iff.1 h))
            (fun h => hdr (r2.dummy_iff.1 h)) hrq e3
          rw [hpp] at e3
          simp only [defineUnweighted, hpre, e1, e2, e3] at he
          cases he
          exact (t1.trans t2 s2.ref).trans t3 s3.ref

theorem define_loc [LawfulVM VM] {st st' : St VM} {id idx : Nat} {l : Lit} (hw : st.db.WF)
    (hg : (st.db.node id).isGeneral = false) (hi : idx < (st.db.node id).len)
    (h : define st id idx .if_ = some (l, st')) : LStep st st' :=
  defineUnweighted_loc (id + 1) st id idx l st' hw (Nat.lt_succ_self _) hg hi h

end TotDb

namespace Dpw
open TotDb
variable {VM : Type} [ManageVars VM]

theorem encodeOutputs_loc [LawfulVM VM] (root : Nat) : ∀ (oidxs : List Nat) (st st' : St VM), st.db.WF →
    (st.db.node root).isGeneral = false → encodeOutputs root oidxs st = some st' → LStep st st' := by
  intro oidxs
  induction oidxs with
  | nil => intro st st' _ _ h; cases h; exact LStep.refl _
  | cons o oidxs ih =>
    intro st st' hw hg h
    unfold encodeOutputs at h
    by_cases ho : o ≥ (st.db.node root).maxVal
    · rw [if_pos ho] at h; exact ih st st' hw hg h
    · rw [if_neg ho] at h
      have hlen : (st.db.node root).len = (st.db.node root).maxVal := by
        cases hn : st.db.node root with
        | general => rw [hn] at hg; cases hg
        | _ => rfl
      obtain ⟨l0, st1, e1, s1, h1, -, -⟩ := define_spec st root o .if_ hw hg (by omega)
      have t1 := define_loc hw hg (by omega) e1
      rw [e1] at h
      simp only at h
      have hw1 := s1.ref.wf hw
      have hg1 : (st1.db.node root).isGeneral = false := by rw [(s1.ref.node root).isGeneral]; exact hg
      obtain ⟨st2, e2, s2, -, -⟩ := encodeOutputs_spec root oidxs st1 hw1 hg1
      have := ih st1 st' hw1 hg1 h
      rw [e2] at h
      cases h
      exact t1.trans this s2.ref

end Dpw
end RustSat
