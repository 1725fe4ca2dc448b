import Verif.Lemmas.CertEnc
/-
`define_unweighted_cert` does the same as `define_unweighted`, and the checker accepts what it writes.
-/
namespace RustSat
namespace TotDb
open Pigeons VeriPb

variable {VM : Type} [ManageVars VM]

omit [ManageVars VM] in
theorem runRequests_append (f : St VM → Nat → Nat → Semantics → Option (Lit × St VM)) :
    ∀ (a b : List (Nat × Nat × Semantics)) (st : St VM),
      runRequests f (a ++ b) st = (runRequests f a st).bind fun st => runRequests f b st := by
  intro a
  induction a with
  | nil => intro b st; rfl
  | cons q a ih =>
    intro b st
    obtain ⟨i, j, sm⟩ := q
    simp only [List.cons_append, runRequests]
    cases f st i j sm with
    | none => rfl
    | some r => exact ih b r.2

theorem requests_ok {db : Db} {id idx : Nat} {new : Semantics} {lits : List LitData} {dp nl : Nat} {lc rc : NodeCon}
    (hw : db.WF) (hn : db.node id = .unit lits dp nl lc rc) :
    ∀ q ∈ requests db (preRanges db lc rc idx new), q.1 < id ∧ (db.node q.1).isGeneral = false ∧ q.2.1 < (db.node q.1).len := by
  have hid : id < db.nodes.length := Db.node_lt (by rw [hn]; exact fun h => by cases h)
  have hok := hw.nodes id _ (Db.getElem?_node hid)
  rw [hn] at hok
  obtain ⟨o1, o2, ucl, ucr, olen⟩ := hok
  intro q hq
  unfold requests preRanges at hq
  simp only [List.mem_append, List.mem_map, List.mem_filter] at hq
  rcases hq with ((⟨v, ⟨hv, h0⟩, rfl⟩ | ⟨v, ⟨hv, h0⟩, rfl⟩) | ⟨v, ⟨hv, h0⟩, rfl⟩) | ⟨v, ⟨hv, h0⟩, rfl⟩
  · by_cases hnew : new.hasIf = true
    · rw [if_pos hnew, mem_rangeIncl] at hv
      simp at h0
      exact ⟨o1, ucl.notGeneral, (con_child ucl (k := v) (by omega) (by omega)).1⟩
    · rw [if_neg hnew] at hv; cases hv
  · by_cases hnew : new.hasIf = true
    · rw [if_pos hnew, mem_rangeIncl] at hv
      simp at h0
      exact ⟨o2, ucr.notGeneral, (con_child ucr (k := v) (by omega) (by omega)).1⟩
    · rw [if_neg hnew] at hv; cases hv
  · by_cases hnew : new.hasOnlyIf = true
    · rw [if_pos hnew, mem_rangeIncl] at hv
      simp at h0
      exact ⟨o1, ucl.notGeneral, (con_child ucl (k := v + 1) (by omega) (by omega)).1⟩
    · rw [if_neg hnew] at hv; cases hv
  · by_cases hnew : new.hasOnlyIf = true
    · rw [if_pos hnew, mem_rangeIncl] at hv
      simp at h0
      exact ⟨o2, ucr.notGeneral, (con_child ucr (k := v + 1) (by omega) (by omega)).1⟩
    · rw [if_neg hnew] at hv; cases hv

/-- What the certified function does, compared to the function without certificates. -/
def CertSpec (f : DefineCert VM) (g : St VM → Nat → Nat → Semantics → Option (Lit × St VM)) (bound : Nat) : Prop :=
  ∀ (st : CSt VM) (s : State) (id idx : Nat) (sem : Semantics) (leaves : List Lit) (init needed : Bool), CI st s →
    Good st.db id → (st.db.node id).isGeneral = false → idx < (st.db.node id).len → id < bound →
    (st.db.node id).len < isizeMax → leaves.length = (st.db.node id).nLeaves →
    (init = true → leaves = (leafLits st.db id).map (·.1)) →
    ∃ l st' leaves' init' s', f st id idx sem leaves init needed = some (l, st', leaves', init') ∧
      g st.proj id idx sem = some (l, st'.proj) ∧ Step st.proj st'.proj ∧ CStep st st' s s' ∧ CI st' s' ∧
      leaves'.length = (st.db.node id).nLeaves ∧ (init' = true → leaves' = (leafLits st.db id).map (·.1)) ∧
      (needed = true → init' = true) ∧ (init = true → init' = true) ∧
      ((∀ l, precond st.db id idx sem ≠ .ret l) → ∃ e, st'.defs.lookup (id, idx + 1) = some e)

theorem singleNode_spec {f : DefineCert VM} {g : St VM → Nat → Nat → Semantics → Option (Lit × St VM)} {bound : Nat}
    (hf : CertSpec f g bound) (id : Nat) (sem : Semantics) (hb : id < bound) :
    ∀ (idxs : List Nat) (st : CSt VM) (s : State) (leaves : List Lit) (init : Bool), CI st s → Good st.db id →
    (st.db.node id).isGeneral = false → (∀ i ∈ idxs, i < (st.db.node id).len) → (st.db.node id).len < isizeMax →
    leaves.length = (st.db.node id).nLeaves → (init = true → leaves = (leafLits st.db id).map (·.1)) →
    ∃ st' leaves' init' s', singleNode f id sem idxs st leaves init = some (st', leaves', init') ∧
      runRequests g (idxs.map fun i => (id, i, sem)) st.proj = some st'.proj ∧ Step st.proj st'.proj ∧ CStep st st' s s' ∧
      CI st' s' ∧ leaves'.length = (st.db.node id).nLeaves ∧ (init' = true → leaves' = (leafLits st.db id).map (·.1)) ∧
      (init = true ∨ idxs ≠ [] → init' = true) := by
  intro idxs
  induction idxs with
  | nil =>
    intro st s leaves init hci hg hng hi hmax hlen hinit
    exact ⟨st, leaves, init, s, rfl, rfl, Step.refl _, CStep.refl _ _, hci, hlen, hinit,
      fun h => h.elim (fun h => h) fun h => absurd rfl h⟩
  | cons i idxs ih =>
    intro st s leaves init hci hg hng hi hmax hlen hinit
    obtain ⟨l, st1, lv1, in1, s1, a1, a2, a3, a4, a5, a6, a7, a8, a9, -⟩ :=
      hf st s id i sem leaves init true hci hg hng (hi i (List.mem_cons_self ..)) hb hmax hlen hinit
    have hr : DbRef st.db st1.db := a3.ref
    have hl1 := leafLits_rel hr hci.wf id
    obtain ⟨st2, lv2, in2, s2, b1, b2, b3, b4, b5, b6, b7, b8⟩ := ih st1 s1 lv1 true a5 (hg.rel hr)
      (by rw [(hr.node id).isGeneral]; exact hng)
      (fun j hj => by rw [(hr.node id).len]; exact hi j (List.mem_cons_of_mem _ hj))
      (by rw [(hr.node id).len]; exact hmax) (by rw [(hr.node id).nLeaves]; exact a6)
      (fun _ => by rw [hl1]; exact a7 (a8 rfl))
    refine ⟨st2, lv2, in2, s2, ?_, ?_, a3.trans hci.wf b3, a4.trans b4, b5, by rw [b6, (hr.node id).nLeaves],
      fun h => by rw [b7 h, hl1], fun _ => b8 (Or.inl rfl)⟩
    · simp only [singleNode, a1]
      exact b1
    · simp only [List.map_cons, runRequests, a2]
      exact b2

theorem getOlitCert_eq {st : CSt VM} {id idx : Nat} {l : Lit} {st1 : St VM} (h : getOlit st.proj id idx = some (l, st1)) :
    getOlitCert st id idx = some (l, { st with db := st1.db, vm := st1.vm }) ∧ st1.cls = st.proj.cls := by
  unfold getOlitCert
  unfold getOlit at h ⊢
  have e : st.proj.db = st.db := rfl
  have e2 : st.proj.vm = st.vm := rfl
  rw [e, e2] at h
  simp only
  cases hu : st.db.unitData id idx with
  | none => rw [hu] at h; cases h
  | some d =>
    rw [hu] at h
    cases d with
    | none =>
      simp only at h ⊢
      injection h with h
      injection h with h1 h2
      subst h1 h2
      exact ⟨rfl, rfl⟩
    | lit x sm =>
      simp only at h ⊢
      injection h with h
      injection h with h1 h2
      subst h1 h2
      exact ⟨rfl, rfl⟩

theorem defineCert_spec [LawfulVM VM] : ∀ fuel, CertSpec (VM := VM) (defineUnweightedCert fuel)
    (fun st id idx sem => defineUnweighted fuel st id idx sem) fuel := by
  intro fuel
  induction fuel with
  | zero => intro st s id idx sem leaves init needed _ _ _ _ h; omega
  | succ fuel ih =>
    intro st s id idx sem leaves init needed hci hg hng hidx hb hmax hlen hinit
    have hret : ∀ l, precond st.db id idx sem = .ret l →
        ∃ l st' leaves' init' s', defineUnweightedCert (fuel + 1) st id idx sem leaves init needed = some (l, st', leaves', init') ∧
          defineUnweighted (fuel + 1) st.proj id idx sem = some (l, st'.proj) ∧ Step st.proj st'.proj ∧ CStep st st' s s' ∧
          CI st' s' ∧ leaves'.length = (st.db.node id).nLeaves ∧
          (init' = true → leaves' = (leafLits st.db id).map (·.1)) ∧ (needed = true → init' = true) ∧
          (init = true → init' = true) ∧
          ((∀ l, precond st.db id idx sem ≠ .ret l) → ∃ e, st'.defs.lookup (id, idx + 1) = some e) := by
      intro l hp
      have hu : defineUnweighted (fuel + 1) st.proj id idx sem = some (l, st.proj) := by
        have hp' : precond st.proj.db id idx sem = .ret l := hp
        simp only [defineUnweighted, hp']
      by_cases hc : (needed && !init) = true
      · refine ⟨l, st, (leafLits st.db id).map (·.1), true, s, ?_, hu, Step.refl _, CStep.refl _ _, hci, ?_, fun _ => rfl,
          fun _ => rfl, fun _ => rfl, fun hh => absurd hp (hh l)⟩
        · simp only [defineUnweightedCert, hp]
          rw [if_pos hc, if_pos]
          rw [List.length_map, hg.leaves_len hci.wf, hlen]
        · rw [List.length_map, hg.leaves_len hci.wf]
      · refine ⟨l, st, leaves, init, s, ?_, hu, Step.refl _, CStep.refl _ _, hci, hlen, hinit, fun h => ?_, fun h => h, fun hh => absurd hp (hh l)⟩
        · simp only [defineUnweightedCert, hp]
          rw [if_neg hc]
        · cases needed <;> cases init <;> simp_all
    cases hn : st.db.node id with
    | dummy => exact absurd hn hg.notDummy
    | general => rw [hn] at hng; cases hng
    | leaf l =>
      rw [← hn]
      exact hret l (by unfold precond; rw [hn])
    | unit lits dp nl lc rc =>
      rw [← hn]
      have hlen' : idx < lits.length := by rw [hn] at hidx; exact hidx
      have hd := List.getElem?_eq_getElem hlen'
      generalize lits[idx] = d at hd
      have hpre := precond_unit hn hd sem
      cases hm : d.missingSemantics sem with
      | none =>
        obtain ⟨l, sm, rfl, h1, h2⟩ := missing_none hm
        rw [hm] at hpre
        exact hret l hpre
      | some new =>
        obtain ⟨gl, gr, pl, pr, ml, mr, ngl, ngr, hnl, hll, hlt, hrt⟩ := hg.unit hci.wf hn
        have lpl := gl.len_pos hci.wf ngl
        have lpr := gr.len_pos hci.wf ngr
        rw [hm] at hpre
        simp only at hpre
        rw [if_neg (fun h => h.elim gl.notDummy gr.notDummy)] at hpre
        have hmaxL : (st.db.node lc.id).len < isizeMax := by rw [hn] at hmax; have : lits.length < isizeMax := hmax; omega
        have hmaxR : (st.db.node rc.id).len < isizeMax := by rw [hn] at hmax; have : lits.length < isizeMax := hmax; omega
        have hnlv : (st.db.node id).nLeaves = (st.db.node lc.id).nLeaves + (st.db.node rc.id).nLeaves := by rw [hn]; exact hnl
        have hreqOk := requests_ok (idx := idx) (new := new) hci.wf hn
        have hleafs := hg.leaves_append hci.wf hn
        have hL1 : ((leafLits st.db lc.id).map (·.1)).length = (st.db.node lc.id).nLeaves := by
          rw [List.length_map, gl.leaves_len hci.wf]
        -- the recursion
        obtain ⟨st1, s1, lv1, r1, r2, r3, r4, r5, r6⟩ : ∃ st1 s1 lv1,
            recurseCert (defineUnweightedCert fuel) (preRanges st.db lc rc idx new) st leaves init = some (st1, lv1, true) ∧
            runRequests (fun st id idx sem => defineUnweighted fuel st id idx sem)
              (requests st.db (preRanges st.db lc rc idx new)) st.proj = some st1.proj ∧
            Step st.proj st1.proj ∧ CStep st st1 s s1 ∧ CI st1 s1 ∧ lv1 = (leafLits st.db id).map (·.1) := by
          unfold requests at hreqOk ⊢
          unfold recurseCert
          generalize hp : preRanges st.db lc rc idx new = p at hreqOk ⊢
          have hpl : p.lcon = lc := by rw [← hp]; rfl
          have hpr : p.rcon = rc := by rw [← hp]; rfl
          have hlIf : p.leftIf = if new.hasIf then rangeIncl (idx + 1 - min (st.db.conLen rc) (idx + 1))
              (min (st.db.conLen lc) (idx + 1)) else [] := by rw [← hp]; rfl
          have hrIf : p.rightIf = if new.hasIf then rangeIncl (idx + 1 - min (st.db.conLen lc) (idx + 1))
              (min (st.db.conLen rc) (idx + 1)) else [] := by rw [← hp]; rfl
          have hlO : p.leftOnlyIf = if new.hasOnlyIf then rangeIncl (idx - min (st.db.conLen rc) idx)
              (min (st.db.conLen lc) idx) else [] := by rw [← hp]; rfl
          have hrO : p.rightOnlyIf = if new.hasOnlyIf then rangeIncl (idx - min (st.db.conLen lc) idx)
              (min (st.db.conLen rc) idx) else [] := by rw [← hp]; rfl
          rw [plain_conLen pl, plain_conLen pr] at hlIf hrIf hlO hrO
          rw [hpl, hpr] at hreqOk ⊢
          simp only [plain_true pl, plain_true pr, Bool.and_true, if_true]
          have hm1 : (p.leftIf.filter (· ≠ 0)).map (fun lval => (lc.id, conIdx (lval - 1) lc, Semantics.if_)) =
              (ifIdxs lc p.leftIf).map fun i => (lc.id, i, Semantics.if_) := by
            unfold ifIdxs; rw [List.map_map]; rfl
          have hm2 : (p.rightIf.filter (· ≠ 0)).map (fun rval => (rc.id, conIdx (rval - 1) rc, Semantics.if_)) =
              (ifIdxs rc p.rightIf).map fun i => (rc.id, i, Semantics.if_) := by
            unfold ifIdxs; rw [List.map_map]; rfl
          have hm3 : (p.leftOnlyIf.filter (· ≠ st.db.conLen lc)).map (fun lval => (lc.id, conIdx lval lc, Semantics.onlyIf)) =
              (onlyIfIdxs st.db lc p.leftOnlyIf).map fun i => (lc.id, i, Semantics.onlyIf) := by
            unfold onlyIfIdxs; rw [List.map_map]; rfl
          have hm4 : (p.rightOnlyIf.filter (· ≠ st.db.conLen rc)).map (fun rval => (rc.id, conIdx rval rc, Semantics.onlyIf)) =
              (onlyIfIdxs st.db rc p.rightOnlyIf).map fun i => (rc.id, i, Semantics.onlyIf) := by
            unfold onlyIfIdxs; rw [List.map_map]; rfl
          rw [hm1, hm2, hm3, hm4] at hreqOk ⊢
          rw [runRequests_append, runRequests_append, runRequests_append]
          simp only [List.mem_append, List.mem_map] at hreqOk
          have n1 : ifIdxs lc p.leftIf ≠ [] ∨ onlyIfIdxs st.db lc p.leftOnlyIf ≠ [] := by
            rcases new.some_dir with hd | hd
            · left
              rw [if_pos hd] at hlIf
              have hmem : min (st.db.node lc.id).len (idx + 1) ∈ p.leftIf := by
                rw [hlIf, mem_rangeIncl]; omega
              intro h0
              unfold ifIdxs at h0
              rw [List.map_eq_nil_iff, List.filter_eq_nil_iff] at h0
              have := h0 _ hmem
              simp at this
              omega
            · right
              rw [if_pos hd] at hlO
              have hmem : idx - min (st.db.node rc.id).len idx ∈ p.leftOnlyIf := by
                rw [hlO, mem_rangeIncl]; omega
              intro h0
              unfold onlyIfIdxs at h0
              rw [List.map_eq_nil_iff, List.filter_eq_nil_iff] at h0
              have := h0 _ hmem
              rw [plain_conLen pl] at this
              simp at this
              omega
          have n2 : ifIdxs rc p.rightIf ≠ [] ∨ onlyIfIdxs st.db rc p.rightOnlyIf ≠ [] := by
            rcases new.some_dir with hd | hd
            · left
              rw [if_pos hd] at hrIf
              have hmem : min (st.db.node rc.id).len (idx + 1) ∈ p.rightIf := by
                rw [hrIf, mem_rangeIncl]; omega
              intro h0
              unfold ifIdxs at h0
              rw [List.map_eq_nil_iff, List.filter_eq_nil_iff] at h0
              have := h0 _ hmem
              simp at this
              omega
            · right
              rw [if_pos hd] at hrO
              have hmem : idx - min (st.db.node lc.id).len idx ∈ p.rightOnlyIf := by
                rw [hrO, mem_rangeIncl]; omega
              intro h0
              unfold onlyIfIdxs at h0
              rw [List.map_eq_nil_iff, List.filter_eq_nil_iff] at h0
              have := h0 _ hmem
              rw [plain_conLen pr] at this
              simp at this
              omega
          have i1 : ∀ i ∈ ifIdxs lc p.leftIf, i < (st.db.node lc.id).len := fun i hi =>
            (hreqOk (lc.id, i, .if_) (Or.inl (Or.inl (Or.inl ⟨i, hi, rfl⟩)))).2.2
          have i2 : ∀ i ∈ ifIdxs rc p.rightIf, i < (st.db.node rc.id).len := fun i hi =>
            (hreqOk (rc.id, i, .if_) (Or.inl (Or.inl (Or.inr ⟨i, hi, rfl⟩)))).2.2
          have i3 : ∀ i ∈ onlyIfIdxs st.db lc p.leftOnlyIf, i < (st.db.node lc.id).len := fun i hi =>
            (hreqOk (lc.id, i, .onlyIf) (Or.inl (Or.inr ⟨i, hi, rfl⟩))).2.2
          have i4 : ∀ i ∈ onlyIfIdxs st.db rc p.rightOnlyIf, i < (st.db.node rc.id).len := fun i hi =>
            (hreqOk (rc.id, i, .onlyIf) (Or.inr ⟨i, hi, rfl⟩)).2.2
          have hsplit : splitAt? (st.db.node lc.id).nLeaves leaves =
              some (leaves.take (st.db.node lc.id).nLeaves, leaves.drop (st.db.node lc.id).nLeaves) := by
            unfold splitAt?; rw [if_pos (by omega)]
          rw [hsplit]
          simp only
          obtain ⟨t1, ll1, in1, u1, a1, a2, a3, a4, a5, a6, a7, a8⟩ := singleNode_spec ih lc.id .if_ (by omega)
            (ifIdxs lc p.leftIf) st s (leaves.take (st.db.node lc.id).nLeaves) init hci gl ngl i1 hmaxL
            (by rw [List.length_take]; omega)
            (fun h => by rw [hinit h, hleafs, ← hL1]; simp)
          have ra : DbRef st.db t1.db := a3.ref
          obtain ⟨t2, rl1, in2, u2, b1, b2, b3, b4, b5, b6, b7, b8⟩ := singleNode_spec ih rc.id .if_ (by omega)
            (ifIdxs rc p.rightIf) t1 u1 (leaves.drop (st.db.node lc.id).nLeaves) init a5 (gr.rel ra)
            (by rw [(ra.node _).isGeneral]; exact ngr) (by rw [(ra.node _).len]; exact i2) (by rw [(ra.node _).len]; exact hmaxR)
            (by rw [(ra.node _).nLeaves, List.length_drop]; omega)
            (fun h => by rw [leafLits_rel ra hci.wf, hinit h, hleafs, ← hL1]; simp)
          have rb : DbRef st.db t2.db := ra.trans b3.ref
          rw [leafLits_rel ra hci.wf] at b7
          rw [(ra.node _).nLeaves] at b6
          obtain ⟨t3, ll2, in3, u3, c1, c2, c3, c4, c5, c6, c7, c8⟩ := singleNode_spec ih lc.id .onlyIf (by omega)
            (onlyIfIdxs st.db lc p.leftOnlyIf) t2 u2 ll1 in1 b5 (gl.rel rb)
            (by rw [(rb.node _).isGeneral]; exact ngl) (by rw [(rb.node _).len]; exact i3) (by rw [(rb.node _).len]; exact hmaxL)
            (by rw [(rb.node _).nLeaves]; exact a6)
            (fun h => by rw [leafLits_rel rb hci.wf]; exact a7 h)
          have rc' : DbRef st.db t3.db := rb.trans c3.ref
          rw [leafLits_rel rb hci.wf] at c7
          obtain ⟨t4, rl2, in4, u4, d1, d2, d3, d4, d5, d6, d7, d8⟩ := singleNode_spec ih rc.id .onlyIf (by omega)
            (onlyIfIdxs st.db rc p.rightOnlyIf) t3 u3 rl1 in2 c5 (gr.rel rc')
            (by rw [(rc'.node _).isGeneral]; exact ngr) (by rw [(rc'.node _).len]; exact i4)
            (by rw [(rc'.node _).len]; exact hmaxR)
            (by rw [(rc'.node _).nLeaves]; exact b6)
            (fun h => by rw [leafLits_rel rc' hci.wf]; exact b7 h)
          rw [leafLits_rel rc' hci.wf] at d7
          have hin3 : in3 = true := n1.elim (fun h => c8 (Or.inl (a8 (Or.inr h)))) fun h => c8 (Or.inr h)
          have hin4 : in4 = true := n2.elim (fun h => d8 (Or.inl (b8 (Or.inr h)))) fun h => d8 (Or.inr h)
          refine ⟨t4, u4, ll2 ++ rl2, ?_, ?_, ((a3.trans hci.wf b3).trans hci.wf c3).trans hci.wf d3,
            ((a4.trans b4).trans c4).trans d4, d5, ?_⟩
          · simp only [a1, b1, c1, d1, hin3, hin4, Bool.and_self]
          · simp only [a2, b2, c2, d2, Option.bind_some]
          · rw [c7 hin3, d7 hin4, hleafs]
        -- the encoding, as without certificates
        obtain ⟨st1', e1, -, l1, n1⟩ := runRequests_spec (f := fun (st : St VM) id idx sem => defineUnweighted fuel st id idx sem)
          (bound := id) (fun st id' idx' sem' h1 h2 h3 h4 => defineUnweighted_spec fuel st id' idx' sem' h1 (by omega) h3 h4)
          (requests st.db (preRanges st.db lc rc idx new)) st.proj hci.wf hreqOk
        rw [r2] at e1
        injection e1 with e1
        subst e1
        have hw1 := r5.wf
        have hn1 : st1.proj.db.node id = .unit lits dp nl lc rc := by rw [n1 id (Nat.le_refl _)]; exact hn
        obtain ⟨olit, sm, st2', lits2, e2, s2, hn2, hd2, hdd, n2, -⟩ := getOlit_spec (st := st1.proj) hw1 hn1 hd
        obtain ⟨g1, g2⟩ := getOlitCert_eq e2
        generalize hst2 : ({ st1 with db := st2'.db, vm := st2'.vm } : CSt VM) = st2 at g1
        have hpj : st2.proj = st2' := by
          rw [← hst2]
          unfold CSt.proj
          simp only
          show (⟨st2'.db, st2'.vm, st1.proj.cls⟩ : St VM) = st2'
          rw [← g2]
        have hdb2 : st2.db = st2'.db := by rw [← hst2]
        have hci2 : CI st2 s1 := r5.step s2 rfl rfl (by rw [← hst2]) (by rw [← hst2]) (by rw [← hst2]) (by rw [← hst2])
        have hcs2 : CStep st1 st2 s1 s1 := CStep.same (by rw [← hst2]) (by rw [← hst2]) (by rw [← hst2])
          (by rw [← hst2]; exact s2.ref) s1
        have r2' : DbRef st.db st2.db := by rw [hdb2]; exact r3.ref.trans s2.ref
        have hpp : preRanges st2.db lc rc idx new = preRanges st.db lc rc idx new := by
          unfold preRanges; rw [r2'.conLen, r2'.conLen]
        have hrr : requests st2.db (preRanges st.db lc rc idx new) = requests st.db (preRanges st.db lc rc idx new) := by
          unfold requests; rw [r2'.conLen, r2'.conLen]
        have hm2 : (LitData.lit olit sm).missingSemantics sem = some new := by
          rcases hdd with rfl | ⟨rfl, rfl⟩
          · exact hm
          · exact hm
        have hreq2 : ∀ q ∈ requests st2.db (preRanges st2.db lc rc idx new), ∃ l, HasLit st2.db q.1 q.2.1 q.2.2 l := by
          rw [hpp, hrr]
          intro q hq
          obtain ⟨l, hl⟩ := l1 q hq
          exact ⟨l, by rw [hdb2]; exact hl.ref s2.ref⟩
        rw [← hdb2] at hn2
        obtain ⟨st3, e3, s3, l3, n3, -⟩ := encode_spec (st := st2.proj) hci2.wf hn2 hd2 hm2
          (fun h => gl.notDummy (r2'.dummy_iff.1 h)) (fun h => gr.notDummy (r2'.dummy_iff.1 h)) hreq2
        have hx : CCtx st2.db id idx olit lc rc := by
          refine ⟨hci2.wf, ⟨_, _, _, hn2⟩, hg.rel r2', by rw [(r2'.node id).len]; exact hidx, ?_,
            by rw [(r2'.node id).len]; exact hmax⟩
          unfold Db.litAt
          rw [hn2]
          simp only
          rw [if_neg (by omega), Nat.add_sub_cancel, hd2]
          rfl
        have hlv : lv1 = (leafLits st2.db id).map (·.1) := by rw [leafLits_rel r2' hci.wf]; exact r6
        obtain ⟨st4, s4, k1, k2, k3, k4, k5⟩ := encodeCert_spec hci2 hx hreq2 e3 s3 hlv
        have e3' : encodeUnweighted st2' id idx olit sem (preRanges st.db lc rc idx new) = some st4.proj := by
          rw [← hpj, ← hpp, k2]; exact e3
        rw [hpp] at k1
        refine ⟨olit, st4, lv1, true, s4, ?_, ?_, ?_, (r4.trans hcs2).trans k3, k4, ?_, fun _ => r6, fun _ => rfl, fun _ => rfl, fun _ => k5⟩
        · simp only [defineUnweightedCert, hpre, r1, g1, k1]
        · have hpre' : precond st.proj.db id idx sem = .cont (preRanges st.db lc rc idx new) := hpre
          have r2'' : runRequests (fun st id idx sem => defineUnweighted fuel st id idx sem)
              (requests st.proj.db (preRanges st.db lc rc idx new)) st.proj = some st1.proj := r2
          simp only [defineUnweighted, hpre', r2'', e2, e3']
        · rw [hpj] at s3
          rw [k2]
          exact (r3.trans hci.wf s2).trans hci.wf s3
        · rw [r6, List.length_map, hg.leaves_len hci.wf]

/-- The loops of the certified encoding functions do the same as those without certificates. -/
theorem defineAllCert_spec [LawfulVM VM] (id : Nat) (sem : Semantics) : ∀ (idxs : List Nat) (st : CSt VM) (s : State)
    (leaves : List Lit) (init : Bool), CI st s → Good st.db id → (st.db.node id).isGeneral = false →
    (∀ i ∈ idxs, i < (st.db.node id).len) → (st.db.node id).len < isizeMax → leaves.length = (st.db.node id).nLeaves →
    (init = true → leaves = (leafLits st.db id).map (·.1)) →
    ∃ st' s', defineAllCert id sem idxs st leaves init = some st' ∧ defineAll st.proj id sem idxs = some st'.proj ∧
      Step st.proj st'.proj ∧ CStep st st' s s' ∧ CI st' s' := by
  intro idxs
  induction idxs with
  | nil =>
    intro st s leaves init hci _ _ _ _ _ _
    exact ⟨st, s, rfl, rfl, Step.refl _, CStep.refl _ _, hci⟩
  | cons i idxs ih =>
    intro st s leaves init hci hg hng hi hmax hlen hinit
    obtain ⟨l, st1, lv1, in1, s1, a1, a2, a3, a4, a5, a6, a7, -, -, -⟩ :=
      defineCert_spec (id + 1) st s id i sem leaves init false hci hg hng (hi i (List.mem_cons_self ..))
        (Nat.lt_succ_self _) hmax hlen hinit
    have hr : DbRef st.db st1.db := a3.ref
    have hl1 := leafLits_rel hr hci.wf id
    obtain ⟨st2, s2, b1, b2, b3, b4, b5⟩ := ih st1 s1 lv1 in1 a5 (hg.rel hr)
      (by rw [(hr.node id).isGeneral]; exact hng)
      (fun j hj => by rw [(hr.node id).len]; exact hi j (List.mem_cons_of_mem _ hj))
      (by rw [(hr.node id).len]; exact hmax) (by rw [(hr.node id).nLeaves]; exact a6)
      (fun h => by rw [hl1]; exact a7 h)
    refine ⟨st2, s2, ?_, ?_, a3.trans hci.wf b3, a4.trans b4, b5⟩
    · simp only [defineAllCert, a1]
      exact b1
    · have a2' : define st.proj id i sem = some (l, st1.proj) := a2
      simp only [defineAll, a2']
      exact b2

end TotDb
end RustSat
