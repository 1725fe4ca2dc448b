import Verif.Lemmas.CertDefs
/-
The definitions of outputs are accepted by the checker, and so are the clauses derived from them.
-/
namespace RustSat
namespace TotDb
open Pigeons VeriPb

theorem lookup_cons (x k : Nat × Nat) (e : SemDefs) (l : Defs) :
    List.lookup x ((k, e) :: l) = if x = k then some e else List.lookup x l := by
  rw [List.lookup]
  by_cases h : x = k
  · subst h; simp
  · rw [if_neg h]
    have : (x == k) = false := by simp [h]
    rw [this]

theorem CInv.change {n : Nat} {db : Db} {defs defs' : Defs} {s s' : State} (hc : CInv n db defs s) (hg : Grow s s')
    (hok : s'.Ok) (hd : ∀ x e, defs.lookup x = some e → ∃ e', defs'.lookup x = some e')
    (hmem : ∀ D ∈ s'.constrs, D ∈ s.constrs ∨ ∀ v, D.Has v → Covered n db defs' v)
    (hnew : ∀ i k e, defs'.lookup (i, k) = some e → defs.lookup (i, k) = some e ∨ DefOK db s' i k e)
    (hids : ∀ n ∈ defIds defs', n ∈ defIds defs ∨ (n < s'.next ∧ ∃ D, s'.get n = some D)) :
    CInv n db defs' s' := by
  refine ⟨hok, fun D hD v hv => ?_, fun i k e he => ?_, fun n hn => ?_⟩
  · rcases hmem D hD with h | h
    · exact (hc.cov D h v hv).mono hd
    · exact h v hv
  · rcases hnew i k e he with h | h
    · exact (hc.defs i k e h).grow hg
    · exact h
  · rcases hids n hn with h | h
    · obtain ⟨h1, D, h2⟩ := hc.ids n h
      exact ⟨Nat.lt_of_lt_of_le h1 hg.next, D, by rw [hg.keep n h1]; exact h2⟩
    · exact h

theorem CInv.push {n : Nat} {db : Db} {defs : Defs} {s : State} (hc : CInv n db defs s) {D : Ineq}
    (hs : Sorted D.terms) (hv : ∀ v, D.Has v → Covered n db defs v) : CInv n db defs (s.push D) := by
  refine hc.change (Grow.push s D) (ok_push.2 ⟨hs, hc.ok⟩) (fun _ e h => ⟨e, h⟩) (fun E hE => ?_)
    (fun _ _ _ h => Or.inl h) fun _ h => Or.inl h
  rcases mem_push.1 hE with rfl | h
  · exact Or.inr hv
  · exact Or.inl h

theorem covered_leaf {n : Nat} {db : Db} (ha : AuxOK db n) {j : Nat} {l : Lit} (h : db.node j = .leaf l) (defs : Defs) :
    Covered n db defs l.var :=
  ⟨ha.leaf j l h, fun i k val l' ho hl => absurd hl.symm (ha.disj i k val l' j l ho h)⟩

theorem outAt_val {db : Db} {i k v v' : Nat} {l l' : Lit} (h : OutAt db i k v l) (h' : OutAt db i k v' l') : v = v' ∧ l = l' := by
  obtain ⟨s, h⟩ := h
  obtain ⟨s', h'⟩ := h'
  rw [h] at h'
  injection h' with h'
  injection h' with h1 h2
  injection h2 with h3 h4
  exact ⟨h1, h3⟩

theorem covered_out {n : Nat} {db : Db} (ha : AuxOK db n) {i k v : Nat} {l : Lit} (h : OutAt db i k v l) {defs : Defs}
    {e : SemDefs} (he : defs.lookup (i, v) = some e) : Covered n db defs l.var := by
  refine ⟨(ha.out _ _ _ _ h).2, fun i' k' v' l' ho hl => ?_⟩
  have e1 := (ha.out _ _ _ _ h).1
  have e2 := (ha.out _ _ _ _ ho).1
  have : l' = l := by rw [e1, e2, hl]
  subst this
  obtain ⟨rfl, rfl⟩ := ha.inj _ _ _ _ _ _ _ ho h
  rw [(outAt_val ho h).1]
  exact ⟨e, he⟩

variable {VM : Type} [ManageVars VM]

/-- The invariant of a certified database: well-formedness, and the checker agrees with the proof. -/
structure CI (st : CSt VM) (s : State) : Prop where
  wf : st.db.WF
  aux : AuxOK st.db (ManageVars.nUsed st.vm)
  inv : CInv (ManageVars.nUsed st.vm) st.db st.defs s
  next : s.next = st.proof.nextId

theorem newLbUnsigned_constr (l : List (Lit × Nat)) (b : Int) :
    (PbConstraint.newLbUnsigned l b).constr = some ⟨lsum l, b⟩ := rfl

theorem LeafOK.max {db : Db} (hw : db.WF) {id : Nat} {leaves : List (Lit × Nat)} (h : LeafOK db id leaves) :
    wsumT (fun _ => true) leaves = (db.node id).maxVal := by
  rw [h.sum, value_all_max hw]

theorem wsumT_le (T : Lit → Bool) (l : List (Lit × Nat)) : wsumT T l ≤ wsumT (fun _ => true) l := by
  induction l with
  | nil => simp [wsumT]
  | cons x l ih =>
    have h2 : ∀ T, wsumT T (x :: l) = (if T x.1 then x.2 else 0) + wsumT T l := by
      intro T; unfold wsumT; simp
    rw [h2, h2]
    simp only [if_true]
    split <;> omega

theorem LeafOK.le {db : Db} (hw : db.WF) {id : Nat} {leaves : List (Lit × Nat)} (h : LeafOK db id leaves) (T : Lit → Bool) :
    value db T id ≤ (db.node id).maxVal := by
  rw [← h.max hw, ← h.sum]
  exact wsumT_le T leaves

/-- The value of a node does not depend on the outputs. -/
theorem LeafOK.upd {db : Db} {n : Nat} (ha : AuxOK db n) {id : Nat} {leaves : List (Lit × Nat)} (h : LeafOK db id leaves)
    {i k v : Nat} {o : Lit} (ho : OutAt db i k v o) (b : Asg) (x : Bool) :
    value db (trueLits (upd b o.var x)) id = value db (trueLits b) id := by
  rw [← h.sum, ← h.sum]
  unfold wsumT
  congr 1
  apply List.map_congr_left
  intro y hy
  obtain ⟨j, hj⟩ := h.leaf y hy
  have hne := ha.disj _ _ _ _ j y.1 ho hj
  have : trueLits (VeriPb.upd b o.var x) y.1 = trueLits b y.1 := by
    unfold trueLits Lit.holds VeriPb.upd
    rw [if_neg hne]
  rw [this]

theorem lbit_upd_true (b : Asg) (o : Lit) (h : o = Lit.pos o.var) : lbit (upd b o.var true) o = 1 := by
  rw [lbit_one, h]
  unfold upd Lit.holds
  simp [Lit.pos, Lit.var, Lit.isNeg]

theorem lbit_upd_false (b : Asg) (o : Lit) (h : o = Lit.pos o.var) : lbit (upd b o.var false) o = 0 := by
  have hne : ¬ lbit (upd b o.var false) o = 1 := by
    rw [lbit_one, h]
    unfold upd Lit.holds
    simp [Lit.pos, Lit.var, Lit.isNeg]
  rcases lbit_cases (upd b o.var false) o with h | h
  · exact h
  · exact absurd h hne

theorem mem_lsum {t : Int × Lit} {l : List (Lit × Nat)} (h : t ∈ lsum l) : ∃ x ∈ l, x.1 = t.2 := by
  obtain ⟨x, hx, rfl⟩ := List.mem_map.1 h
  exact ⟨x, hx, rfl⟩

theorem LeafOK.has {db : Db} {n : Nat} (ha : AuxOK db n) {id : Nat} {leaves : List (Lit × Nat)} (h : LeafOK db id leaves)
    {t : Int × Lit} (ht : t ∈ lsum leaves ∨ t ∈ lsum (leaves.map fun x => (x.1.neg, x.2))) (defs : Defs) :
    Covered n db defs t.2.var := by
  rcases ht with ht | ht
  · obtain ⟨x, hx, e⟩ := mem_lsum ht
    obtain ⟨j, hj⟩ := h.leaf x hx
    rw [← e]
    exact covered_leaf ha hj defs
  · obtain ⟨x, hx, e⟩ := mem_lsum ht
    obtain ⟨y, hy, rfl⟩ := List.mem_map.1 hx
    obtain ⟨j, hj⟩ := h.leaf y hy
    rw [← e, Lit.var_neg]
    exact covered_leaf ha hj defs

/-- Writing the definitions of an output: accepted by the checker. -/
theorem defineReal_spec {st : CSt VM} {s : State} (h : CI st s) {id value : Nat} {leaves : List (Lit × Nat)}
    (hl : LeafOK st.db id leaves) (hnl : ∀ l, st.db.node id ≠ .leaf l) (hmax : (st.db.node id).maxVal < isizeMax)
    (hv : value ≤ (st.db.node id).maxVal + 1)
    (hlit : 0 < value → value ≤ (st.db.node id).maxVal → ∃ l, st.db.litAt id value = some l)
    (hnone : st.defs.lookup (id, value) = none) (hnd : st.db.node id ≠ .dummy) :
    ∃ e st' s', defineRealSemantics st id value leaves = some (e, st') ∧ st'.db = st.db ∧ st'.vm = st.vm ∧
      st'.cls = st.cls ∧ CStep st st' s s' ∧ CI st' s' ∧ st'.defs.lookup (id, value) = some e := by
  have hW := hl.max h.wf
  have hsw : PbConstraint.sumWeights leaves = (st.db.node id).maxVal := by rw [sumWeights_eq, hW]
  have hle := hl.le h.wf
  have hmono : ∀ (e : SemDefs) x e', st.defs.lookup x = some e' →
      List.lookup x (((id, value), e) :: st.defs) = some e' := by
    intro e x e' hx
    rw [lookup_cons, if_neg]
    · exact hx
    · rintro rfl
      rw [hnone] at hx
      cases hx
  have hself : ∀ e : SemDefs, List.lookup (id, value) (((id, value), e) :: st.defs) = some e := by
    intro e; rw [lookup_cons, if_pos rfl]
  have hback : ∀ (e : SemDefs) (s' : State), DefOK st.db s' id value e → ∀ i k e',
      List.lookup (i, k) (((id, value), e) :: st.defs) = some e' → st.defs.lookup (i, k) = some e' ∨ DefOK st.db s' i k e' := by
    intro e s' hd i k e' he
    rw [lookup_cons] at he
    by_cases hx : (i, k) = (id, value)
    · rw [if_pos hx] at he
      injection hx with h1 h2
      injection he with he
      subst h1 h2 he
      exact Or.inr hd
    · rw [if_neg hx] at he
      exact Or.inl he
  have hids : ∀ (e : SemDefs) n, n ∈ defIds (((id, value), e) :: st.defs) → n ∈ defIds st.defs ∨ n ∈ e.ids := by
    intro e n hn
    unfold defIds at hn ⊢
    rw [List.flatMap_cons, List.mem_append] at hn
    exact hn.symm
  have hget : ∀ D, (s.push D).get st.proof.nextId = some D := fun D => by rw [← h.next]; exact get_push s D
  have hvs : ∀ b, csum b (lsum leaves) = (TotDb.value st.db (trueLits b) id : Nat) := fun b => by rw [csum_lsum, hl.sum]
  have hvn : ∀ b, csum b (lsum (leaves.map fun x => (x.1.neg, x.2))) =
      ((st.db.node id).maxVal : Int) - (TotDb.value st.db (trueLits b) id : Nat) := fun b => by rw [csum_neg, hW, hl.sum]
  unfold defineRealSemantics
  rw [if_pos (by omega)]
  simp only
  by_cases h0 : value = 0
  · rw [if_pos h0]
    subst h0
    have hsl : ∀ b, (ofConstr ⟨lsum leaves, 0⟩).slack b = onlyFun st.db id 0 b := fun b => by
      rw [slack_ofConstr]; show csum b (lsum leaves) - 0 = _
      rw [hvs]; unfold onlyFun; simp
    have hstep := step_red_trivial (c := ⟨lsum leaves, 0⟩) h.inv.ok fun b => by
      rw [slack_ofConstr]; show 0 ≤ csum b (lsum leaves) - 0
      rw [hvs]; omega
    have hd : DefOK st.db (s.push (ofConstr ⟨lsum leaves, 0⟩)) id 0 ⟨none, some st.proof.nextId⟩ :=
      ⟨by omega, by omega, by omega,
        fun _ => ⟨_, rfl, by rw [← h.next]; exact Nat.lt_succ_self _, _, by rw [← h.next]; exact get_push _ _, hsl⟩, fun _ => rfl,
        by omega, hnd⟩
    have hi0 : ∀ n ∈ (⟨none, some st.proof.nextId⟩ : SemDefs).ids, n = st.proof.nextId := by simp [SemDefs.ids]
    refine ⟨_, _, s.push (ofConstr ⟨lsum leaves, 0⟩), rfl, rfl, rfl, rfl,
      CStep.push hstep rfl rfl (hmono _) (fun n hn => (hids _ n hn).imp (fun h => h) fun hh => by rw [h.next]; exact hi0 n hh)
        (by simp [witnessVars]) rfl, ⟨h.wf, h.aux, ?_, ?_⟩, hself _⟩
    · refine h.inv.change (Grow.push _ _) (ok_push.2 ⟨sorted_ofConstr _, h.inv.ok⟩) (fun x e he => ⟨e, hmono _ x e he⟩)
        (fun D hD => ?_) (hback _ _ hd) (fun n hn => (hids _ n hn).imp (fun h => h) fun hh => by
          rw [hi0 n hh]
          exact ⟨by rw [← h.next]; exact Nat.lt_succ_self _, _, hget _⟩)
      rcases mem_push.1 hD with rfl | hD
      · refine Or.inr fun v hv => ?_
        obtain ⟨t, ht, rfl⟩ := has_ofConstr hv
        exact hl.has h.aux (Or.inl ht) _
      · exact Or.inl hD
    · show s.next + 1 = st.proof.nextId + 1; rw [h.next]
  · rw [if_neg h0]
    by_cases h1 : value > (st.db.node id).maxVal
    · rw [if_pos h1]
      have hsl : ∀ b, (ofConstr ⟨lsum (leaves.map fun x => (x.1.neg, x.2)), 0⟩).slack b = ifFun st.db id value b := fun b => by
        rw [slack_ofConstr]; show csum b (lsum _) - 0 = _
        rw [hvn]; unfold ifFun
        have : ((st.db.node id).maxVal : Int) - value + 1 = 0 := by omega
        rw [this]; simp
      have hstep := step_red_trivial (c := ⟨lsum (leaves.map fun x => (x.1.neg, x.2)), 0⟩) h.inv.ok fun b => by
        rw [slack_ofConstr]; show 0 ≤ csum b (lsum _) - 0
        rw [hvn]; have := hle (trueLits b); omega
      have hd : DefOK st.db (s.push (ofConstr ⟨lsum (leaves.map fun x => (x.1.neg, x.2)), 0⟩)) id value
          ⟨some st.proof.nextId, none⟩ :=
        ⟨by omega, by omega,
          fun _ => ⟨_, rfl, by rw [← h.next]; exact Nat.lt_succ_self _, _, by rw [← h.next]; exact get_push _ _, hsl⟩,
          by omega, by omega, fun _ => rfl, hnd⟩
      have hi0 : ∀ n ∈ (⟨some st.proof.nextId, none⟩ : SemDefs).ids, n = st.proof.nextId := by simp [SemDefs.ids]
      refine ⟨_, _, s.push (ofConstr ⟨lsum (leaves.map fun x => (x.1.neg, x.2)), 0⟩), rfl, rfl, rfl, rfl,
        CStep.push hstep rfl rfl (hmono _) (fun n hn => (hids _ n hn).imp (fun h => h) fun hh => by rw [h.next]; exact hi0 n hh)
          (by simp [witnessVars]) rfl, ⟨h.wf, h.aux, ?_, ?_⟩, hself _⟩
      · refine h.inv.change (Grow.push _ _) (ok_push.2 ⟨sorted_ofConstr _, h.inv.ok⟩) (fun x e he => ⟨e, hmono _ x e he⟩)
          (fun D hD => ?_) (hback _ _ hd) (fun n hn => (hids _ n hn).imp (fun h => h) fun hh => by
            rw [hi0 n hh]
            exact ⟨by rw [← h.next]; exact Nat.lt_succ_self _, _, hget _⟩)
        rcases mem_push.1 hD with rfl | hD
        · refine Or.inr fun v hv => ?_
          obtain ⟨t, ht, rfl⟩ := has_ofConstr hv
          exact hl.has h.aux (Or.inr ht) _
        · exact Or.inl hD
      · show s.next + 1 = st.proof.nextId + 1; rw [h.next]
    · rw [if_neg h1]
      obtain ⟨o, ho⟩ := hlit (by omega) (by omega)
      rw [ho]
      simp only
      obtain ⟨c1, e1, f1⟩ := pbImplLit_constr hsw (k := value) (by omega) (by omega) o
      obtain ⟨c2, e2, f2⟩ := litImplPb_constr hsw (k := value) (by omega) o
      rw [e1, e2]
      simp only [redundantPb, f1, f2, Option.map_some]
      generalize hk1 : (⟨lsum (leaves.map fun x => (x.1.neg, x.2)) ++ [(((st.db.node id).maxVal : Int) - value + 1, o)],
        ((st.db.node id).maxVal : Int) - value + 1⟩ : Constr) = k1
      generalize hk2 : (⟨lsum leaves ++ [((value : Int), o.neg)], value⟩ : Constr) = k2
      obtain ⟨j, hout⟩ : ∃ j, OutAt st.db id j value o := by
        rcases litAt_out ho with ⟨hh, -⟩ | hh
        · exact absurd hh (hnl o)
        · exact hh
      have hpos := (h.aux.out _ _ _ _ hout).1
      have hs1 : ∀ b, (ofConstr k1).slack b = ifFun st.db id value b := fun b => by
        rw [slack_ofConstr, ← hk1]
        simp only [csum_append, hvn, csum]
        unfold ifFun
        rw [ho]
        show _ = _ - _ * (1 - lbit b o)
        ring
      have hs2 : ∀ b, (ofConstr k2).slack b = onlyFun st.db id value b := fun b => by
        rw [slack_ofConstr, ← hk2]
        simp only [csum_append, hvs, csum, lbit_neg]
        unfold onlyFun
        rw [ho]
        show _ = _ - _ * lbit b o
        ring
      have hno : ∀ D ∈ s.constrs, ¬ D.Has o.var := by
        intro D hD hh
        obtain ⟨e, he⟩ := (h.inv.cov D hD _ hh).2 _ _ _ _ hout rfl
        rw [hnone] at he
        cases he
      have st1 : step s (.red k1 [(o.var, true)]) = some (s.push (ofConstr k1)) := by
        refine step_red_fix h.inv.ok (fun b => ?_) (fun e he hh => absurd hh (hno e he))
        rw [hs1]
        unfold ifFun
        rw [ho, hl.upd h.aux hout]
        simp only [outBit, lbit_upd_true b o hpos]
        have := hle (trueLits b)
        simp
        omega
      have ok1 : (s.push (ofConstr k1)).Ok := ok_push.2 ⟨sorted_ofConstr _, h.inv.ok⟩
      have st2 : step (s.push (ofConstr k1)) (.red k2 [(o.var, false)]) = some ((s.push (ofConstr k1)).push (ofConstr k2)) := by
        refine step_red_fix ok1 (fun b => ?_) (fun e he hh b => ?_)
        · rw [hs2]
          unfold onlyFun
          rw [ho, hl.upd h.aux hout]
          simp only [outBit, lbit_upd_false b o hpos]
          simp
        · rcases mem_push.1 he with rfl | he
          · rw [hs1, hs2]
            unfold ifFun onlyFun
            rw [ho, hl.upd h.aux hout]
            simp only [outBit, lbit_upd_false b o hpos]
            have := hle (trueLits b)
            rcases lbit_cases b o with hb | hb <;> rw [hb] <;> simp <;> omega
          · exact absurd hh (hno e he)
      have g1 := get_push s (ofConstr k1)
      have hd : DefOK st.db ((s.push (ofConstr k1)).push (ofConstr k2)) id value
          ⟨some st.proof.nextId, some (st.proof.nextId + 1)⟩ := by
        refine ⟨by omega, fun _ _ => ⟨o, ho⟩, fun _ => ⟨_, rfl, ?_⟩, fun _ => ⟨_, rfl, ?_⟩, by omega, by omega, hnd⟩
        · refine HasDef.grow (Grow.push _ _) ⟨?_, _, ?_, hs1⟩
          · rw [← h.next]; exact Nat.lt_succ_self _
          · rw [← h.next]; exact g1
        · refine ⟨?_, _, ?_, hs2⟩
          · rw [← h.next]; exact Nat.lt_succ_self _
          · rw [← h.next]; exact get_push (s.push (ofConstr k1)) _
      have hi0 : ∀ n ∈ (⟨some st.proof.nextId, some (st.proof.nextId + 1)⟩ : SemDefs).ids,
          n = st.proof.nextId ∨ n = st.proof.nextId + 1 := by simp [SemDefs.ids]
      have hio : IsOut st.db o.var := ⟨_, _, _, _, hout, rfl⟩
      refine ⟨_, _, (s.push (ofConstr k1)).push (ofConstr k2), rfl, rfl, rfl, rfl,
        ⟨⟨[.red k1 [(o.var, true)], .red k2 [(o.var, false)]], by simp [Proof.redundant, Proof.push],
            by simp only [run, st1, st2], by intro v hv; simp [witnessVars] at hv; rw [hv]; exact hio⟩,
          fun hh => by show s.next + 1 + 1 = st.proof.nextId + 1 + 1; rw [hh], (Grow.push _ _).trans (Grow.push _ _),
          ⟨[], by simp, by simp⟩, hmono _, fun n hn => (hids _ n hn).imp (fun h => h) fun hh => ?_, fun _ h => h⟩,
        ⟨h.wf, h.aux, ?_, ?_⟩, hself _⟩
      · show s.next ≤ n ∧ n < s.next + 1 + 1
        rw [h.next]
        have := hi0 n hh
        omega
      · refine h.inv.change ((Grow.push _ _).trans (Grow.push _ _)) (ok_push.2 ⟨sorted_ofConstr _, ok1⟩)
          (fun x e he => ⟨e, hmono _ x e he⟩) (fun D hD => ?_) (hback _ _ hd) (fun n hn => (hids _ n hn).imp (fun h => h) fun hh => by
            rcases hi0 n hh with rfl | rfl
            · exact ⟨by show _ < s.next + 1 + 1; rw [h.next]; omega, _, by
                rw [← h.next, get_push_ne _ _ (by show s.next ≠ s.next + 1; omega)]; exact g1⟩
            · exact ⟨by show _ < s.next + 1 + 1; rw [h.next]; omega, _, by
                rw [← h.next]; exact get_push (s.push (ofConstr k1)) _⟩)
        rcases mem_push.1 hD with rfl | hD
        · refine Or.inr fun v hv => ?_
          obtain ⟨t, ht, rfl⟩ := has_ofConstr hv
          rw [← hk2] at ht
          rcases List.mem_append.1 ht with ht | ht
          · exact hl.has h.aux (Or.inl ht) _
          · have : t = ((value : Int), o.neg) := by simpa using ht
            rw [this]
            show Covered _ _ _ o.neg.var
            rw [Lit.var_neg]
            exact covered_out h.aux hout (hself _)
        · rcases mem_push.1 hD with rfl | hD
          · refine Or.inr fun v hv => ?_
            obtain ⟨t, ht, rfl⟩ := has_ofConstr hv
            rw [← hk1] at ht
            rcases List.mem_append.1 ht with ht | ht
            · exact hl.has h.aux (Or.inr ht) _
            · have : t = (((st.db.node id).maxVal : Int) - value + 1, o) := by simpa using ht
              rw [this]
              exact covered_out h.aux hout (hself _)
          · exact Or.inl hD
      · show s.next + 1 + 1 = st.proof.nextId + 1 + 1; rw [h.next]

/-- What a definition returned by `define_semantics` stands for. -/
def SemOK (s : State) (V : Nat → Prop) (d : SemDef) (f : Asg → Int) : Prop :=
  match d with
  | .none => ∀ b, f b = 0
  | .ax l => V l.var ∧ ∀ b, f b = lbit b l
  | .id n => HasDef s n f

theorem SemOK.grow {s s' : State} (h : Grow s s') {V V' : Nat → Prop} (hV : ∀ v, V v → V' v) {d : SemDef} {f : Asg → Int}
    (hd : SemOK s V d f) : SemOK s' V' d f := by
  cases d with
  | none => exact hd
  | ax l => exact ⟨hV _ hd.1, hd.2⟩
  | id n => exact HasDef.grow h hd

theorem SemOK.den {s : State} (hok : s.Ok) {V : Nat → Prop} (hV : ∀ D ∈ s.constrs, ∀ v, D.Has v → V v) {d : SemDef}
    {f : Asg → Int} (hd : SemOK s V d f) : Den s V d.ops f := by
  cases d with
  | none => exact Or.inl ⟨rfl, hd⟩
  | ax l => exact Den.ax hd.1 fun b => (hd.2 b).symm
  | id n =>
    obtain ⟨-, D, h1, h2⟩ := hd
    have := State.get_mem h1
    exact Den.id h1 (hok D this) (hV D this) h2

/-- The arguments of `define_semantics`. -/
structure SemArg (db : Db) (id value : Nat) (ty : SemDefType) (leaves : List (Lit × Nat)) : Prop where
  kind : (∃ l, db.node id = .leaf l) ∨ ((∀ l, db.node id ≠ .leaf l) ∧ 2 ≤ (db.node id).maxVal)
  leaf : LeafOK db id leaves
  max : (db.node id).maxVal < isizeMax
  rng : value ≤ (db.node id).maxVal + 1
  if_ : ty = .if_ → 0 < value
  only : ty = .onlyIf → value ≤ (db.node id).maxVal
  lit : 0 < value → value ≤ (db.node id).maxVal → ∃ l, db.litAt id value = some l

theorem DefOK.get {db : Db} {s : State} {id value : Nat} {e : SemDefs} (h : DefOK db s id value e) {ty : SemDefType}
    (h1 : ty = .if_ → 0 < value) (h2 : ty = .onlyIf → value ≤ (db.node id).maxVal) :
    ∃ n, e.get ty = some n ∧ HasDef s n (defFun ty db id value) := by
  cases ty with
  | if_ => exact h.if_ (h1 rfl)
  | onlyIf => exact h.only (h2 rfl)

theorem defineSemantics_spec {st : CSt VM} {s : State} (h : CI st s) {id value : Nat} {ty : SemDefType}
    {leaves : List (Lit × Nat)} (ha : SemArg st.db id value ty leaves) :
    ∃ d st' s', defineSemantics st id value ty leaves = some (d, st') ∧ st'.db = st.db ∧ st'.vm = st.vm ∧
      st'.cls = st.cls ∧ CStep st st' s s' ∧ CI st' s' ∧
      SemOK s' (Covered (ManageVars.nUsed st'.vm) st'.db st'.defs) d (defFun ty st.db id value) ∧
      ((∀ l, st.db.node id ≠ .leaf l) → d ≠ .none ∧ ∃ e, st'.defs.lookup (id, value) = some e) := by
  unfold defineSemantics
  cases hlk : st.defs.lookup (id, value) with
  | some e =>
    simp only
    obtain ⟨n, h1, h2⟩ := (h.inv.defs _ _ _ hlk).get ha.if_ ha.only
    rw [h1]
    exact ⟨.id n, st, s, rfl, rfl, rfl, rfl, CStep.refl _ _, h, h2, fun _ => ⟨(fun hh => by cases hh), e, hlk⟩⟩
  | none =>
    simp only
    rcases ha.kind with ⟨l, hl⟩ | ⟨hnl, h2⟩
    · have hlit : st.db.litAt id 1 = some l := by unfold Db.litAt; rw [hl]; rfl
      have hmv : (st.db.node id).maxVal = 1 := by rw [hl]; rfl
      have hval : ∀ b, (TotDb.value st.db (trueLits b) id : Int) = lbit b l := fun b => by
        rw [value_leaf h.wf hl]
        unfold lbit trueLits
        cases l.holds b <;> rfl
      have hcov : Covered (ManageVars.nUsed st.vm) st.db st.defs l.var := covered_leaf h.aux hl _
      have hil : (st.db.node id).isLeafNode = true := by rw [hl]; rfl
      rw [hil]
      simp only [Bool.true_or, if_true]
      rw [hlit]
      have hr := ha.rng
      rw [hmv] at hr
      by_cases c1 : value = 0 ∧ ty = .onlyIf
      · rw [if_pos c1]
        obtain ⟨rfl, rfl⟩ := c1
        refine ⟨.ax l, st, s, rfl, rfl, rfl, rfl, CStep.refl _ _, h, ⟨hcov, fun b => ?_⟩, fun hh => absurd hl (hh l)⟩
        simp only [defFun, onlyFun, hval]; simp
      · rw [if_neg c1]
        by_cases c2 : value = 2 ∧ ty = .if_
        · rw [if_pos c2]
          obtain ⟨rfl, rfl⟩ := c2
          refine ⟨.ax l.neg, st, s, rfl, rfl, rfl, rfl, CStep.refl _ _, h, ⟨by rw [Lit.var_neg]; exact hcov, fun b => ?_⟩,
            fun hh => absurd hl (hh l)⟩
          simp only [defFun, ifFun, hval, hmv, lbit_neg]; simp
        · rw [if_neg c2]
          refine ⟨.none, st, s, rfl, rfl, rfl, rfl, CStep.refl _ _, h, fun b => ?_, fun hh => absurd hl (hh l)⟩
          cases ty with
          | if_ =>
            have := ha.if_ rfl
            have : value = 1 := by
              have : value ≠ 2 := fun hh => c2 ⟨hh, rfl⟩
              omega
            subst this
            simp only [defFun, ifFun, hval, hmv, hlit, outBit]; ring
          | onlyIf =>
            have := ha.only rfl
            rw [hmv] at this
            have : value = 1 := by
              have : value ≠ 0 := fun hh => c1 ⟨hh, rfl⟩
              omega
            subst this
            simp only [defFun, onlyFun, hval, hlit, outBit]; ring
    · have hc : ((st.db.node id).isLeafNode || decide (1 ≥ (st.db.node id).maxVal)) = false := by
        rw [Bool.or_eq_false_iff]
        refine ⟨?_, by simp; omega⟩
        cases hn : st.db.node id with
        | leaf l => exact absurd hn (hnl l)
        | _ => rfl
      rw [hc]
      simp only [Bool.false_eq_true, if_false]
      obtain ⟨e, st', s', e1, e2, e3, e4, cs, ci, hself⟩ := defineReal_spec h ha.leaf hnl ha.max ha.rng ha.lit hlk
        (by
          intro hd
          rcases ha.kind with ⟨l, hl⟩ | ⟨-, hm⟩
          · exact hnl l hl
          · rw [hd] at hm
            exact absurd hm (by simp [Node.maxVal]))
      rw [e1]
      simp only
      obtain ⟨n, h1, h2⟩ := (ci.inv.defs _ _ _ hself).get (ty := ty) ha.if_ (by rw [e2]; exact ha.only)
      rw [h1]
      rw [e2] at h2
      exact ⟨.id n, st', s', rfl, e2, e3, e4, cs, ci, h2, fun _ => ⟨(fun hh => by cases hh), e, hself⟩⟩

theorem CStep.covered {st st' : CSt VM} {s s' : State} (h : CStep st st' s s') {n : Nat} {db : Db} {v : Nat}
    (hv : Covered n db st.defs v) : Covered n db st'.defs v := hv.mono fun x e he => ⟨e, h.defs x e he⟩

/-- Deriving a clause from the definitions of a node and of its children: accepted, and the constraint is the clause. -/
theorem certClause_spec {st : CSt VM} {s : State} (h : CI st s) {left right this : Nat × Nat} {tyC tyT : SemDefType}
    {ll rl : List Lit} {c : Clause} (hl : SemArg st.db left.1 left.2 tyC (ones ll))
    (hr : SemArg st.db right.1 right.2 tyC (ones rl)) (ht : SemArg st.db this.1 this.2 tyT (ones (ll ++ rl)))
    (hn : ∀ l, st.db.node this.1 ≠ .leaf l)
    (hf : ∀ b, Clause.sat b c ↔ 0 ≤ defFun tyT st.db this.1 this.2 b + defFun tyC st.db left.1 left.2 b +
      defFun tyC st.db right.1 right.2 b) :
    ∃ n st' s', certClause st left right this tyC tyT ll rl c = some st' ∧ st'.db = st.db ∧ st'.vm = st.vm ∧
      st'.cls = st.cls ++ [(c, n)] ∧ CStep st st' s s' ∧ CI st' s' ∧ ∃ e, st'.defs.lookup this = some e := by
  unfold certClause
  obtain ⟨ld, st1, s1, a1, a2, a3, a4, a5, a6, a7, -⟩ := defineSemantics_spec h hl
  rw [a1]
  simp only
  rw [← a2] at hr ht
  obtain ⟨rd, st2, s2, b1, b2, b3, b4, b5, b6, b7, -⟩ := defineSemantics_spec a6 hr
  rw [b1]
  simp only
  rw [← b2] at ht
  obtain ⟨td, st3, s3, c1, c2, c3, c4, c5, c6, c7, c8⟩ := defineSemantics_spec b6 ht
  rw [c1]
  simp only
  have hdb2 : st2.db = st.db := by rw [b2, a2]
  have hdb3 : st3.db = st.db := by rw [c2, hdb2]
  obtain ⟨htd, e, he⟩ := c8 (by rw [hdb2]; exact hn)
  rw [a2] at b7
  rw [hdb2] at c7
  have dT := c7.den c6.inv.ok c6.inv.cov
  have dR := (b7.grow (V' := Covered (ManageVars.nUsed st3.vm) st3.db st3.defs) c5.grow
    (fun v hv => by rw [c2, c3]; exact c5.covered hv)).den c6.inv.ok c6.inv.cov
  have dL := (a7.grow (V' := Covered (ManageVars.nUsed st3.vm) st3.db st3.defs) (b5.grow.trans c5.grow)
    (fun v hv => by rw [c2, c3, b2, b3]; exact c5.covered (b5.covered hv))).den c6.inv.ok c6.inv.cov
  have dAll := (dT.add dL).add dR
  have hne : (td.ops.add ld.ops).add rd.ops ≠ [] := by
    have h0 : td.ops ≠ [] := by
      cases td with
      | none => exact absurd rfl htd
      | id n => simp [SemDef.ops]
      | ax l => simp [SemDef.ops]
    have hadd : ∀ a b : Ops, a ≠ [] → a.add b ≠ [] := by
      intro a b hab
      unfold Ops.add
      rw [if_neg hab]
      by_cases hb : b = []
      · rw [if_pos hb]; exact hab
      · rw [if_neg hb]; simp
    exact hadd _ _ (hadd _ _ h0)
  obtain ⟨D, d1, d2, d3, d4, d5⟩ := dAll.pol hne
  unfold deriveClause Proof.operations
  rw [if_neg d4]
  simp only
  refine ⟨st3.proof.nextId, _, s3.push D, rfl, hdb3, by rw [c3, b3, a3], ?_, ?_, ?_, e, he⟩
  · show st3.cls ++ _ = _
    rw [c4, b4, a4]; rfl
  · refine (a5.trans b5).trans (c5.trans ⟨⟨[_], rfl, by simp only [run, d5], by simp [witnessVars]⟩, fun hh => ?_, Grow.push _ _,
      ⟨[(c, st3.proof.nextId)], rfl, ?_⟩, fun _ _ h => h, fun _ h => Or.inl h, fun _ h => h⟩)
    · show s3.next + 1 = st3.proof.nextId + 1; rw [hh]
    · intro x hx
      have : x = (c, st3.proof.nextId) := by simpa using hx
      rw [this, ← c6.next]
      refine ⟨⟨Nat.le_refl _, Nat.lt_succ_self _, fun hn => absurd (c6.inv.ids _ hn).1 (Nat.lt_irrefl _)⟩, D, get_push _ _, fun b => ?_⟩
      rw [d3, hf]
  · exact ⟨c6.wf, c6.aux, c6.inv.push d1 d2, by show s3.next + 1 = st3.proof.nextId + 1; rw [c6.next]⟩

end TotDb
end RustSat
