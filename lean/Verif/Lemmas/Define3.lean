import Verif.Lemmas.Define2
/-
`define_unweighted`: the main theorem.
-/
namespace RustSat
namespace TotDb

variable {VM : Type} [ManageVars VM]

theorem litSlice_setUnit {db : Db} {id idx : Nat} {lits : List LitData} {dp nl : Nat} {lc rc : NodeCon} {d : LitData}
    (hn : db.node id = .unit lits dp nl lc rc) {cid : Nat} (hc : cid ≠ id) :
    litSlice (db.setUnit id idx d) cid = litSlice db cid := by
  unfold litSlice; rw [setUnit_node hn, if_neg hc]

/-- The clauses for one output and marking it. -/
theorem encode_spec {st : St VM} (hw : st.db.WF) {id idx : Nat} {lits : List LitData} {dp nl : Nat}
    {lc rc : NodeCon} {olit : Lit} {s : Option Semantics} {req new : Semantics}
    (hn : st.db.node id = .unit lits dp nl lc rc) (hd : lits[idx]? = some (.lit olit s))
    (hm : (LitData.lit olit s).missingSemantics req = some new)
    (hdl : st.db.node lc.id ≠ .dummy) (hdr : st.db.node rc.id ≠ .dummy)
    (hreq : ∀ q ∈ requests st.db (preRanges st.db lc rc idx new), ∃ l, HasLit st.db q.1 q.2.1 q.2.2 l) :
    ∃ st', encodeUnweighted st id idx olit req (preRanges st.db lc rc idx new) = some st' ∧ Step st st' ∧
      HasLit st'.db id idx req olit ∧ (∀ j, j ≠ id → st'.db.node j = st.db.node j) ∧ Adds st.db st'.db id (· = idx) req := by
  have hid : id < st.db.nodes.length := Db.node_lt (by rw [hn]; exact fun h => by cases h)
  have hok := hw.nodes id _ (Db.getElem?_node hid)
  rw [hn] at hok
  obtain ⟨o1, o2, ucl, ucr, olen⟩ := hok
  have hi : idx < lits.length := (List.getElem?_eq_some_iff.1 hd).1
  have hu : st.db.unitData id idx = some (.lit olit s) := by unfold Db.unitData; rw [hn]; exact hd
  obtain ⟨t, ht, tIf, tOnly⟩ := addSemantics_lit olit s req
  obtain ⟨newIf, newOnly⟩ := missing_some hm
  have hupd := setUnit_upd hn hd (LitRef.add olit s req)
  obtain ⟨llits, hll⟩ := litSlice_some hdl ucl.notGeneral
  obtain ⟨rlits, hrl⟩ := litSlice_some hdr ucr.notGeneral
  generalize hp : preRanges st.db lc rc idx new = p at hreq ⊢
  have hpl : p.lcon = lc := by rw [← hp]; rfl
  have hpr : p.rcon = rc := by rw [← hp]; rfl
  have hlIf : p.leftIf = if new.hasIf then rangeIncl (idx + 1 - min (st.db.conLen rc) (idx + 1))
      (min (st.db.conLen lc) (idx + 1)) else [] := by rw [← hp]; rfl
  have hrIf : p.rightIf = if new.hasIf then rangeIncl (idx + 1 - min (st.db.conLen lc) (idx + 1))
      (min (st.db.conLen rc) (idx + 1)) else [] := by rw [← hp]; rfl
  have hlO : p.leftOnlyIf = if new.hasOnlyIf then rangeIncl (idx - min (st.db.conLen rc) idx)
      (min (st.db.conLen lc) idx) else [] := by rw [← hp]; rfl
  have hrO : p.rightOnlyIf = if new.hasOnlyIf then rangeIncl (idx - min (st.db.conLen lc) idx)
      (min (st.db.conLen rc) idx) else [] := by rw [← hp]; rfl
  unfold requests at hreq
  simp only [List.mem_append, List.mem_map, List.mem_filter] at hreq
  rw [hpl, hpr] at hreq
  -- the clauses
  have hIfC : ∀ lval ∈ p.leftIf, ∃ c, ifClause p llits rlits idx olit lval = some c ∧
      (∀ C, SoundIf st.db C → ∀ b, ClauseSet.sat b C → Clause.sat b c →
        ∀ T : Lit → Bool, (∀ x, T x = true → x.holds b = true) → lval ≤ conVal st.db T lc →
        idx + 1 - lval ≤ conVal st.db T rc → olit.holds b = true) ∧
      (∀ b, Strict st.db b → (idx + 1 ≤ conVal st.db (trueLits b) lc + conVal st.db (trueLits b) rc →
        olit.holds b = true) → lval ≤ idx + 1 → Clause.sat b c) ∧
      ∀ x ∈ c, x = olit ∨ VarIn st.db x.var := by
    intro lval hlval
    have hlval' := hlval
    by_cases hnew : new.hasIf = true
    · rw [hlIf, if_pos hnew, mem_rangeIncl] at hlval'
      rw [if_pos hnew] at hrIf
      have := ifClause_spec (p := p) (llits := llits) (rlits := rlits) (idx := idx) (lval := lval) (olit := olit) hw
        (by rw [hpl]; exact ucl) (by rw [hpr]; exact ucr)
        (fun h0 => by
          rw [hpl]
          obtain ⟨x, hx⟩ := hreq (lc.id, conIdx (lval - 1) lc, .if_)
            (Or.inl (Or.inl (Or.inl ⟨lval, ⟨hlval, by simp; omega⟩, rfl⟩)))
          exact ⟨by omega, x, hx, hx.slice _ hll⟩)
        (fun h0 => by
          rw [hpr]
          obtain ⟨x, hx⟩ := hreq (rc.id, conIdx (idx + 1 - lval - 1) rc, .if_)
            (Or.inl (Or.inl (Or.inr ⟨idx + 1 - lval, ⟨by rw [hrIf, mem_rangeIncl]; omega, by simp; omega⟩, rfl⟩)))
          exact ⟨by omega, x, hx, hx.slice _ hrl⟩)
      rw [hpl, hpr] at this
      exact this
    · rw [hlIf, if_neg hnew] at hlval'
      cases hlval'
  have hOC : ∀ lval ∈ p.leftOnlyIf, ∃ c, onlyIfClause st.db p llits rlits idx olit lval = some c ∧
      (∀ C, SoundOnlyIf st.db C → ∀ b, ClauseSet.sat b C → Clause.sat b c →
        conVal st.db (trueLits b) lc ≤ lval → conVal st.db (trueLits b) rc ≤ idx - lval → olit.holds b = false) ∧
      (∀ b, Strict st.db b → (olit.holds b = true → idx + 1 ≤ conVal st.db (trueLits b) lc +
        conVal st.db (trueLits b) rc) → lval ≤ idx → Clause.sat b c) ∧
      ∀ x ∈ c, x.var = olit.var ∨ VarIn st.db x.var := by
    intro lval hlval
    have hlval' := hlval
    by_cases hnew : new.hasOnlyIf = true
    · rw [hlO, if_pos hnew, mem_rangeIncl] at hlval'
      rw [if_pos hnew] at hrO
      have := onlyIfClause_spec (p := p) (llits := llits) (rlits := rlits) (idx := idx) (lval := lval) (olit := olit) hw
        (by rw [hpl]; exact ucl) (by rw [hpr]; exact ucr)
        (fun h0 => by
          rw [hpl] at h0 ⊢
          obtain ⟨x, hx⟩ := hreq (lc.id, conIdx lval lc, .onlyIf)
            (Or.inl (Or.inr ⟨lval, ⟨hlval, by simp; omega⟩, rfl⟩))
          exact ⟨x, hx, hx.slice _ hll⟩)
        (fun h0 => by
          rw [hpr] at h0 ⊢
          obtain ⟨x, hx⟩ := hreq (rc.id, conIdx (idx - lval) rc, .onlyIf)
            (Or.inr ⟨idx - lval, ⟨by rw [hrO, mem_rangeIncl]; omega, by simp; omega⟩, rfl⟩)
          exact ⟨x, hx, hx.slice _ hrl⟩)
      rw [hpl, hpr] at this
      exact this
    · rw [hlO, if_neg hnew] at hlval'
      cases hlval'
  obtain ⟨c1, e1, f1, g1⟩ := collect_spec (ifClause p llits rlits idx olit) p.leftIf
    fun a ha => by obtain ⟨c, hc, _⟩ := hIfC a ha; exact ⟨c, hc⟩
  obtain ⟨c2, e2, f2, g2⟩ := collect_spec (onlyIfClause st.db p llits rlits idx olit) p.leftOnlyIf
    fun a ha => by obtain ⟨c, hc, _⟩ := hOC a ha; exact ⟨c, hc⟩
  have hval : ∀ T, value st.db T id = conVal st.db T lc + conVal st.db T rc := value_unit hw hn
  have hout : OutAt st.db id idx (idx + 1) olit := ⟨s, by rw [hn]; simp [Node.outData, hd]⟩
  rw [ht] at hupd
  have hdbO : ∀ lval, onlyIfClause (st.db.setUnit id idx (.lit olit (some t))) p llits rlits idx olit lval =
      onlyIfClause st.db p llits rlits idx olit lval := by
    intro lval
    unfold onlyIfClause
    rw [hupd.ref.conLen, hupd.ref.conLen]
  refine ⟨{ st with db := st.db.setUnit id idx (.lit olit (some t)), cls := st.cls ++ (c1 ++ c2) }, ?_,
    step_mark hupd hw ?_ ?_ ?_ ?_, ?_, fun j hj => ?_,
    hupd.adds (Q := (· = idx)) (fun h => (tIf.1 h).imp (fun h => h) fun h => ⟨rfl, h⟩) (fun h => (tOnly.1 h).imp (fun h => h) fun h => ⟨rfl, h⟩) id⟩
  · unfold encodeUnweighted
    rw [hu]
    simp only [hm, ht]
    rw [hpl, hpr, litSlice_setUnit hn (by omega), litSlice_setUnit hn (by omega), hll, hrl]
    simp only [funext hdbO, e1, e2, List.append_assoc]
  · intro hs' hs C hC b hb T hT hv
    have hnew : new.hasIf = true := newIf.2 ⟨by
      rcases tIf.1 hs' with h | h
      · rw [hs] at h; cases h
      · exact h, hs⟩
    have hv : idx + 1 ≤ conVal st.db T lc + conVal st.db T rc := by
      rw [← hval]; exact hv.elim (fun h => h.le hw) fun h => h.2
    have b1 := conVal_le_conLen hw T ucl
    have b2 := conVal_le_conLen hw T ucr
    obtain ⟨hbC, hbn⟩ := (ClauseSet.sat_append _ _ _).1 hb
    have hmem : idx + 1 - min (conVal st.db T rc) (idx + 1) ∈ p.leftIf := by
      rw [hlIf, if_pos hnew, mem_rangeIncl]; omega
    obtain ⟨c, hc, hsnd, -⟩ := hIfC _ hmem
    obtain ⟨c', hc', hcc⟩ := f1 _ hmem
    rw [hc] at hcc
    cases hcc
    exact hsnd C hC b hbC (hbn c (List.mem_append_left _ hc')) T hT (by omega) (by omega)
  · intro _ hs' hs C hC b hb ho
    have hnew : new.hasOnlyIf = true := newOnly.2 ⟨by
      rcases tOnly.1 hs' with h | h
      · rw [hs] at h; cases h
      · exact h, hs⟩
    rw [hval]
    have b1 := conVal_le_conLen hw (trueLits b) ucl
    have b2 := conVal_le_conLen hw (trueLits b) ucr
    obtain ⟨hbC, hbn⟩ := (ClauseSet.sat_append _ _ _).1 hb
    rcases Nat.lt_or_ge (conVal st.db (trueLits b) lc + conVal st.db (trueLits b) rc) (idx + 1) with hlt | hge
    · exfalso
      have hmem : min (st.db.conLen lc) (idx - conVal st.db (trueLits b) rc) ∈ p.leftOnlyIf := by
        rw [hlO, if_pos hnew, mem_rangeIncl]; omega
      obtain ⟨c, hc, hsnd, -⟩ := hOC _ hmem
      obtain ⟨c', hc', hcc⟩ := f2 _ hmem
      rw [hc] at hcc
      cases hcc
      have := hsnd C hC b hbC (hbn c (List.mem_append_right _ hc')) (by omega) (by omega)
      rw [ho] at this
      cases this
    · exact hge
  · intro b hb c hc
    have hst := hb id idx (idx + 1) olit hout
    rw [hval] at hst
    rcases List.mem_append.1 hc with hc | hc
    · obtain ⟨lval, hl, e⟩ := g1 c hc
      obtain ⟨c', e', -, hh, -⟩ := hIfC lval hl
      rw [e] at e'
      cases e'
      refine hh b hb (fun h => hst.2 h) ?_
      by_cases hnew : new.hasIf = true
      · rw [hlIf, if_pos hnew, mem_rangeIncl] at hl; omega
      · rw [hlIf, if_neg hnew] at hl; cases hl
    · obtain ⟨lval, hl, e⟩ := g2 c hc
      obtain ⟨c', e', -, hh, -⟩ := hOC lval hl
      rw [e] at e'
      cases e'
      refine hh b hb (fun h => hst.1 h) ?_
      by_cases hnew : new.hasOnlyIf = true
      · rw [hlO, if_pos hnew, mem_rangeIncl] at hl; omega
      · rw [hlO, if_neg hnew] at hl; cases hl
  · intro c hc x hx
    have holit : VarIn st.db olit.var := Or.inr ⟨id, idx, idx + 1, olit, hout, rfl⟩
    rcases List.mem_append.1 hc with hc | hc
    · obtain ⟨lval, hl, e⟩ := g1 c hc
      obtain ⟨c', e', -, -, hh⟩ := hIfC lval hl
      rw [e] at e'
      cases e'
      rcases hh x hx with rfl | h
      · exact holit
      · exact h
    · obtain ⟨lval, hl, e⟩ := g2 c hc
      obtain ⟨c', e', -, -, hh⟩ := hOC lval hl
      rw [e] at e'
      cases e'
      rcases hh x hx with h | h
      · rw [h]; exact holit
      · exact h
  · right
    refine ⟨t, ?_, hupd.new, fun h => tIf.2 (Or.inr h), fun h => tOnly.2 (Or.inr h)⟩
    simp only
    rw [(hupd.ref.node id).isGeneral, hn]; rfl
  · simp only; rw [setUnit_node hn, if_neg hj]

theorem precond_unit {db : Db} {id idx : Nat} {lits : List LitData} {dp nl : Nat} {lc rc : NodeCon} {d : LitData}
    (hn : db.node id = .unit lits dp nl lc rc) (hd : lits[idx]? = some d) (req : Semantics) :
    precond db id idx req = match d.missingSemantics req with
      | none => (match d with | .lit l _ => .ret l | .none => .panic)
      | some new =>
        if db.node lc.id = .dummy ∨ db.node rc.id = .dummy then
          .pass (if db.node lc.id = .dummy then rc else lc)
        else .cont (preRanges db lc rc idx new) := by
  unfold precond
  rw [hn]
  simp only [hd]
  match d with
  | .none => rfl
  | .lit l none => rfl
  | .lit l (some s) => rfl

theorem defineUnweighted_spec [LawfulVM VM] :
    ∀ fuel, DefSpec (fun (st : St VM) id idx sem => defineUnweighted fuel st id idx sem) fuel := by
  intro fuel
  induction fuel with
  | zero => intro st id idx sem _ h; omega
  | succ fuel ih =>
    intro st id idx sem hw hfuel hg hidx
    cases hn : st.db.node id with
    | dummy => rw [hn] at hidx; exact absurd hidx (Nat.not_lt_zero _)
    | general => rw [hn] at hg; cases hg
    | leaf l =>
      rw [hn] at hidx
      refine ⟨l, st, by simp only [defineUnweighted, precond, hn], Step.refl _, Or.inl ⟨hn, ?_⟩, fun _ _ => rfl, Adds.of_node rfl _ _⟩
      have : idx < 1 := hidx
      omega
    | unit lits dp nl lc rc =>
      have hlen : idx < lits.length := by rw [hn] at hidx; exact hidx
      have hd := List.getElem?_eq_getElem hlen
      generalize lits[idx] = d at hd
      have hid : id < st.db.nodes.length := Db.node_lt (by rw [hn]; exact fun h => by cases h)
      have hok := hw.nodes id _ (Db.getElem?_node hid)
      rw [hn] at hok
      obtain ⟨o1, o2, ucl, ucr, olen⟩ := hok
      have hpre := precond_unit hn hd sem
      cases hm : d.missingSemantics sem with
      | none =>
        obtain ⟨l, s, rfl, h1, h2⟩ := missing_none hm
        rw [hm] at hpre
        refine ⟨l, st, by simp only [defineUnweighted, hpre], Step.refl _, Or.inr ⟨s, by rw [hn]; rfl, ?_, h1, h2⟩,
          fun _ _ => rfl, Adds.of_node rfl _ _⟩
        rw [hn]; simp [Node.outData, hd]
      | some new =>
        rw [hm] at hpre
        simp only at hpre
        by_cases hdum : st.db.node lc.id = .dummy ∨ st.db.node rc.id = .dummy
        · rw [if_pos hdum] at hpre
          generalize hcon : (if st.db.node lc.id = .dummy then rc else lc) = con at hpre
          -- the connection that is not a dummy
          have hcon : con.id < id ∧ UnitCon st.db con ∧ lits.length = st.db.conLen con ∧
              ∀ T, value st.db T id = conVal st.db T con := by
            by_cases hdl : st.db.node lc.id = .dummy
            · rw [if_pos hdl] at hcon
              subst hcon
              have := dummy_con hw hdl (fun _ => true)
              exact ⟨o2, ucr, by omega, fun T => by rw [value_unit hw hn, (dummy_con hw hdl T).1, Nat.zero_add]⟩
            · rw [if_neg hdl] at hcon
              subst hcon
              have hdr : st.db.node rc.id = .dummy := by rcases hdum with h | h; exact absurd h hdl; exact h
              have := dummy_con hw hdr (fun _ => true)
              exact ⟨o1, ucl, by omega, fun T => by rw [value_unit hw hn, (dummy_con hw hdr T).1, Nat.add_zero]⟩
          obtain ⟨k1, k2, k3, k4⟩ := hcon
          obtain ⟨m1, m2⟩ := con_child k2 (k := idx + 1) (by omega) (by omega)
          simp only [Nat.add_sub_cancel] at m1 m2
          obtain ⟨ilit, st1, e1, s1, l1, n1, -⟩ := ih st con.id (conIdx idx con) sem hw (by omega) k2.notGeneral m1
          have hw1 := s1.ref.wf hw
          have hn1 : st1.db.node id = .unit lits dp nl lc rc := by rw [n1 id k1, hn]
          obtain ⟨olit, s, st2, lits2, e2, s2, hn2, hd2, hdd, n2, a2⟩ := getOlit_spec hw1 hn1 hd
          have hw2 := s2.ref.wf hw1
          obtain ⟨t, ht, tIf, tOnly⟩ := addSemantics_lit olit s sem
          have hupd := setUnit_upd hn2 hd2 (LitRef.add olit s sem)
          rw [ht] at hupd
          have hu : st2.db.unitData id idx = some (.lit olit s) := by unfold Db.unitData; rw [hn2]; exact hd2
          have l2 := l1.ref s2.ref
          have r2 := s1.ref.trans s2.ref
          have hval : ∀ T, value st2.db T id = conVal st2.db T con := fun T => by
            rw [r2.value hw, r2.conVal hw, k4]
          have hm2 : ∀ T, idx + 1 ≤ conVal st2.db T con ↔ conIdx idx con + 1 ≤ value st2.db T con.id := fun T => by
            rw [r2.value hw, r2.conVal hw, m2]
          obtain ⟨newIf, newOnly⟩ := missing_some hm
          have hout : OutAt st2.db id idx (idx + 1) olit := ⟨s, by rw [hn2]; simp [Node.outData, hd2]⟩
          refine ⟨olit,
            { st2 with db := st2.db.setUnit id idx (.lit olit (some t)), cls := st2.cls ++ [Atomics.litImplLit ilit olit] },
            ?_,
            (s1.trans hw s2).trans hw (step_mark hupd hw2 ?_ ?_ ?_ ?_), ?_, fun j hj => ?_,
            ((Adds.of_node (n1 id k1) _ _).trans (a2 _ _)).trans
              (hupd.adds (Q := (· = idx)) (fun h => (tIf.1 h).imp (fun h => h) fun h => ⟨rfl, h⟩) (fun h => (tOnly.1 h).imp (fun h => h) fun h => ⟨rfl, h⟩) id)⟩
          · simp only [defineUnweighted, hpre, e1, e2, hu, ht]
          · intro hs' hs C hC b hb T hT hv
            have hsem : sem.hasIf = true := by
              rcases tIf.1 hs' with h | h
              · rw [hs] at h; cases h
              · exact h
            obtain ⟨hbC, hbn⟩ := (ClauseSet.sat_append _ _ _).1 hb
            have := hbn _ (List.mem_cons_self ..)
            rw [Am1.sat_litImplLit] at this
            have hv : idx + 1 ≤ conVal st2.db T con := by
              rw [← hval]; exact hv.elim (fun h => h.le hw2) fun h => h.2
            exact this (l2.if_ hw2 hsem hC hbC hT ((hm2 T).1 hv))
          · intro hnd
            exfalso
            have hnd0 := hnd id lc rc (by rw [hn2]; rfl)
            rcases hdum with h | h
            · exact hnd0.1 (r2.dummy_iff.2 h)
            · exact hnd0.2 (r2.dummy_iff.2 h)
          · intro b hb c hc
            simp only [List.mem_cons, List.not_mem_nil, or_false] at hc
            subst hc
            rw [Am1.sat_litImplLit, l2.strict hw2 hb, hb id idx (idx + 1) olit hout, hval, hm2]
            exact fun h => h
          · intro c hc x hx
            simp only [List.mem_cons, List.not_mem_nil, or_false] at hc
            subst hc
            simp only [Atomics.litImplLit, List.mem_cons, List.not_mem_nil, or_false] at hx
            rcases hx with rfl | rfl
            · rw [Lit.var_neg]; exact l2.varIn
            · exact Or.inr ⟨id, idx, idx + 1, _, hout, rfl⟩
          · right
            refine ⟨t, ?_, hupd.new, fun h => tIf.2 (Or.inr h), fun h => tOnly.2 (Or.inr h)⟩
            simp only
            rw [(hupd.ref.node id).isGeneral, hn2]; rfl
          · simp only; rw [setUnit_node hn2, if_neg (by omega), n2 j (by omega), n1 j (by omega)]
        · rw [if_neg hdum] at hpre
          have hdl : st.db.node lc.id ≠ .dummy := fun h => hdum (Or.inl h)
          have hdr : st.db.node rc.id ≠ .dummy := fun h => hdum (Or.inr h)
          obtain ⟨st1, e1, s1, l1, n1⟩ := runRequests_spec (f := fun st id idx sem => defineUnweighted fuel st id idx sem)
            (bound := id) (fun st id' idx' sem' h1 h2 h3 h4 => ih st id' idx' sem' h1 (by omega) h3 h4)
            (requests st.db (preRanges st.db lc rc idx new)) st hw (by
              intro q hq
              unfold requests preRanges at hq
              simp only [List.mem_append, List.mem_map, List.mem_filter] at hq
              rcases hq with ((⟨v, ⟨hv, h0⟩, rfl⟩ | ⟨v, ⟨hv, h0⟩, rfl⟩) | ⟨v, ⟨hv, h0⟩, rfl⟩) | ⟨v, ⟨hv, h0⟩, rfl⟩
              · by_cases hnew : new.hasIf = true
                · rw [if_pos hnew, mem_rangeIncl] at hv
                  simp at h0
                  exact ⟨o1, ucl.notGeneral, (con_child ucl (k := v) (by omega) (by omega)).1⟩
                · rw [if_neg hnew] at hv; cases hv
              · by_cases hnew : new.hasIf = true
                · rw [if_pos hnew, mem_rangeIncl] at hv
                  simp at h0
                  exact ⟨o2, ucr.notGeneral, (con_child ucr (k := v) (by omega) (by omega)).1⟩
                · rw [if_neg hnew] at hv; cases hv
              · by_cases hnew : new.hasOnlyIf = true
                · rw [if_pos hnew, mem_rangeIncl] at hv
                  simp at h0
                  exact ⟨o1, ucl.notGeneral, (con_child ucl (k := v + 1) (by omega) (by omega)).1⟩
                · rw [if_neg hnew] at hv; cases hv
              · by_cases hnew : new.hasOnlyIf = true
                · rw [if_pos hnew, mem_rangeIncl] at hv
                  simp at h0
                  exact ⟨o2, ucr.notGeneral, (con_child ucr (k := v + 1) (by omega) (by omega)).1⟩
                · rw [if_neg hnew] at hv; cases hv)
          have hw1 := s1.ref.wf hw
          have hn1 : st1.db.node id = .unit lits dp nl lc rc := by rw [n1 id (Nat.le_refl _), hn]
          obtain ⟨olit, s, st2, lits2, e2, s2, hn2, hd2, hdd, n2, a2⟩ := getOlit_spec hw1 hn1 hd
          have hw2 := s2.ref.wf hw1
          have r2 := s1.ref.trans s2.ref
          have hpp : preRanges st2.db lc rc idx new = preRanges st.db lc rc idx new := by
            unfold preRanges; rw [r2.conLen, r2.conLen]
          have hrr : requests st2.db (preRanges st.db lc rc idx new) = requests st.db (preRanges st.db lc rc idx new) := by
            unfold requests; rw [r2.conLen, r2.conLen]
          have hm2 : (LitData.lit olit s).missingSemantics sem = some new := by
            rcases hdd with rfl | ⟨rfl, rfl⟩
            · exact hm
            · exact hm
          obtain ⟨st3, e3, s3, l3, n3, a3⟩ := encode_spec hw2 hn2 hd2 hm2 (fun h => hdl (r2.dummy_iff.1 h))
            (fun h => hdr (r2.dummy_iff.1 h)) (by
              rw [hpp, hrr]
              intro q hq
              obtain ⟨l, hl⟩ := l1 q hq
              exact ⟨l, hl.ref s2.ref⟩)
          rw [hpp] at e3
          refine ⟨olit, st3, ?_, (s1.trans hw s2).trans hw s3, l3, fun j hj => ?_,
            ((Adds.of_node (n1 id (Nat.le_refl _)) _ _).trans (a2 _ _)).trans a3⟩
          · simp only [defineUnweighted, hpre, e1, e2, e3]
          · rw [n3 j (by omega), n2 j (by omega), n1 j (by omega)]

/-- `define_unweighted` on a node whose outputs have an index in range. -/
theorem define_spec [LawfulVM VM] (st : St VM) (id idx : Nat) (sem : Semantics) (hw : st.db.WF)
    (hg : (st.db.node id).isGeneral = false) (hi : idx < (st.db.node id).len) :
    ∃ l st', define st id idx sem = some (l, st') ∧ Step st st' ∧ HasLit st'.db id idx sem l ∧
      (∀ j, id < j → st'.db.node j = st.db.node j) ∧ Adds st.db st'.db id (· = idx) sem :=
  defineUnweighted_spec (id + 1) st id idx sem hw (Nat.lt_succ_self _) hg hi

theorem defineAll_spec [LawfulVM VM] (id : Nat) (sem : Semantics) : ∀ (idxs : List Nat) (st : St VM), st.db.WF →
    (st.db.node id).isGeneral = false → (∀ i ∈ idxs, i < (st.db.node id).len) →
    ∃ st', defineAll st id sem idxs = some st' ∧ Step st st' ∧ (∀ i ∈ idxs, ∃ l, HasLit st'.db id i sem l) ∧
      Adds st.db st'.db id (· ∈ idxs) sem := by
  intro idxs
  induction idxs with
  | nil => intro st _ _ _; exact ⟨st, rfl, Step.refl _, by simp, Adds.of_node rfl _ _⟩
  | cons i rest ih =>
    intro st hw hg hi
    obtain ⟨l, st1, e1, s1, l1, -, a1⟩ := define_spec st id i sem hw hg (hi i (by simp))
    obtain ⟨st2, e2, s2, l2, a2⟩ := ih st1 (s1.ref.wf hw) (by rw [(s1.ref.node id).isGeneral]; exact hg)
      fun j hj => by rw [(s1.ref.node id).len]; exact hi j (by simp [hj])
    refine ⟨st2, by simp only [defineAll, e1, e2], s1.trans hw s2, fun j hj => ?_,
      (a1.mono fun k hk => by simp [hk]).trans (a2.mono fun k hk => List.mem_cons_of_mem _ hk)⟩
    rcases List.mem_cons.1 hj with rfl | hj
    · exact ⟨l, l1.ref s2.ref⟩
    · exact l2 j hj

end TotDb
end RustSat
