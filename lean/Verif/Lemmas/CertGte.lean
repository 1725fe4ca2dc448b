import Verif.Lemmas.CertGteDef
import Verif.Lemmas.CertTotalizer
import Verif.Lemmas.Gte
import Verif.Spec.CertGte
/-
The certified generalized totalizer: every call does what the call without proof logging does, and the checker accepts
what it writes.
-/
namespace RustSat
open TotDb Pigeons VeriPb Card

namespace TotDb

/-- The trees for segments of equal weights are good. -/
theorem segTrees_good : ∀ (segs : List (List (Lit × Nat))) (db : Db), db.WF →
    (∀ seg ∈ segs, seg ≠ [] ∧ ∀ x ∈ seg, ∀ y ∈ seg, x.2 = y.2) → (∀ x ∈ segs.flatten, 0 < x.2) →
    ∀ cons db', segTrees db segs = some (cons, db') → ∀ c ∈ cons, Good db' c.id := by
  intro segs
  induction segs with
  | nil =>
    intro db hw _ _ cons db' e c hc
    injection e with e
    injection e with e1 e2
    rw [← e1] at hc
    cases hc
  | cons seg segs ih =>
    intro db hw hseg hpos cons db' e c hc
    obtain ⟨hne, hk⟩ := hseg seg (by simp)
    match seg, hne with
    | (l, w) :: rest, _ =>
      rw [segTrees] at e
      simp only [List.headD_cons] at e
      have hw0 : 0 < w := hpos (l, w) (by simp)
      obtain ⟨id, db1, e1, a1, a2, a3, a4, a5⟩ := litTree_spec hw (lits := ((l, w) :: rest).map (·.1)) (by simp)
      have hgood := litTree_good hw e1
      rw [e1] at e
      have hw1 : ¬ w = 0 := by omega
      simp only [hw1, if_false] at e
      have hs' : ∀ seg ∈ segs, seg ≠ [] ∧ ∀ x ∈ seg, ∀ y ∈ seg, x.2 = y.2 := fun s hs => hseg s (by simp [hs])
      have hp' : ∀ x ∈ segs.flatten, 0 < x.2 := fun x hx => hpos x (by rw [List.flatten_cons]; exact List.mem_append_right _ hx)
      obtain ⟨cons2, db2, e2, b1, b2, b3, b4, b5⟩ := segTrees_spec segs db1 a1 hs' hp'
      rw [e2] at e
      injection e with e
      injection e with e3 e4
      rw [← e3] at hc
      rw [← e4]
      rcases List.mem_cons.1 hc with rfl | hc
      · exact hgood.ext b2
      · exact ih db1 a1 hs' hp' cons2 db2 e2 c hc

end TotDb

/-- Extending the tree yields a tree without offsets and length limits. -/
theorem Gte.Inv.extendTree_good {t t' : Gte} {n : Nat} {cls : ClauseSet} {ins : List (Lit × Nat)} {own : List Nat}
    (h : t.Inv n cls ins own) (hg : ∀ con, t.root = some con → Good t.db con.id) (mw : Option Nat)
    (he : t.extendTree mw = some t') : ∀ con, t'.root = some con → Good t'.db con.id := by
  unfold Gte.extendTree at he
  simp only at he
  by_cases h0 : t.litBuffer.filter (fits mw) = []
  · rw [h0] at he
    simp only [List.isEmpty_nil, if_true] at he
    injection he with he
    subst he
    exact hg
  · have hie : (t.litBuffer.filter (fits mw)).isEmpty = false := by simpa using h0
    rw [hie] at he
    simp only [Bool.false_eq_true, if_false] at he
    have hp := sortBy_perm (·.2) (t.litBuffer.filter (fits mw))
    obtain ⟨hf, hs⟩ := segments_spec (fun x : Lit × Nat => x.2) (sortBy (·.2) (t.litBuffer.filter (fits mw)))
    have hpos : ∀ x ∈ (segments (·.2) (sortBy (·.2) (t.litBuffer.filter (fits mw)))).flatten, 0 < x.2 := by
      rw [hf]
      intro x hx
      have := hp.mem_iff.1 hx
      rw [List.mem_filter] at this
      exact (h.buf x this.1).1
    obtain ⟨cons, db1, e1, a1, a2, a3, a4, a5⟩ := segTrees_spec (segments (·.2) (sortBy (·.2) (t.litBuffer.filter (fits mw))))
      t.db h.core.wf hs hpos
    have hgd := segTrees_good _ t.db h.core.wf hs hpos cons db1 e1
    rw [e1] at he
    simp only at he
    have hcons : ∀ c ∈ cons ++ t.root.toList, PlainCon db1 c ∧ Good db1 c.id := by
      intro c hc
      rcases List.mem_append.1 hc with hc | hc
      · exact ⟨(a4 c hc).1, hgd c hc⟩
      · rw [Option.mem_toList] at hc
        exact ⟨a2.plain (h.root c hc).1, (hg c hc).ext a2⟩
    cases hm : mergeBalanced db1 (cons ++ t.root.toList) with
    | mk r db2 =>
      rw [hm] at he
      cases r with
      | none => simp at he
      | some con =>
        simp only at he
        injection he with he
        subst he
        have hne : cons ++ t.root.toList ≠ [] := by
          intro h0
          rw [h0] at hm
          simp [mergeBalanced] at hm
        obtain ⟨c, db3, e2, b1, b2, b3, b4⟩ := mergeBalanced_spec (mergeable_good mergeable_plain fun _ _ h => h) a1 hne hcons
        rw [hm] at e2
        injection e2 with e2 e3
        injection e2 with e2
        subst e2 e3
        intro con' hcon
        injection hcon with hcon
        subst hcon
        exact b3.2

namespace CertGte
variable {VM : Type} [ManageVars VM]

omit [ManageVars VM] in
theorem stepDb (e e' : CertGte VM) (h1 : e'.proof = e.proof) (h2 : e'.cls = e.cls) (h3 : e'.defs = e.defs)
    (h4 : ∀ v, IsOut e.gte.db v → IsOut e'.gte.db v) (s : State) : CStep e.st e'.st s s :=
  CStep.db (st := e.st) (st' := e'.st) h1 h2 h3 h4 s

/-- The invariant of the certified encoder with a state of the checker. -/
structure Inv (e : CertGte VM) (s : State) (cls : ClauseSet) (ins : List (Lit × Nat)) (own : List Nat) : Prop where
  gte : e.gte.Inv (ManageVars.nUsed e.vm) cls ins own
  good : ∀ con, e.gte.root = some con → Good e.gte.db con.id
  inv : CInv (ManageVars.nUsed e.vm) e.gte.db e.defs s
  next : s.next = e.proof.nextId
  len : (ins.map (·.2)).sum < isizeMax

/-- A certified call: what it writes is accepted, and the invariants that concern the proof hold again. -/
structure Call (e e' : CertGte VM) (s s' : State) : Prop where
  step : CStep e.st e'.st s s'
  good : ∀ con, e'.gte.root = some con → Good e'.gte.db con.id
  inv : CInv (ManageVars.nUsed e'.vm) e'.gte.db e'.defs s'
  next : s'.next = e'.proof.nextId

theorem Call.trans {a b c : CertGte VM} {s t u : State} (h1 : Call a b s t) (h2 : Call b c t u) : Call a c s u :=
  ⟨h1.step.trans h2.step, h2.good, h2.inv, h2.next⟩

namespace Inv
variable {e : CertGte VM} {s : State} {cls : ClauseSet} {ins : List (Lit × Nat)} {own : List Nat}

theorem call (h : e.Inv s cls ins own) {e' : CertGte VM} {s' : State} (hc : Call e e' s s') {cls' : ClauseSet}
    {own' : List Nat} (ht : e'.gte.Inv (ManageVars.nUsed e'.vm) cls' ins own') : e'.Inv s' cls' ins own' :=
  ⟨ht, hc.good, hc.inv, hc.next, h.len⟩

/-- Values of the root fit the type of coefficients. -/
theorem rootMax {t : Gte} {n : Nat} (h : t.Inv n cls ins own) (hl : (ins.map (·.2)).sum < isizeMax) {con : NodeCon}
    (hr : t.root = some con) : (t.db.node con.id).maxVal < isizeMax := by
  have hv := h.val (fun _ => true)
  unfold Gte.rootVal at hv
  rw [hr] at hv
  simp only [conVal] at hv
  rw [value_all_max h.core.wf, wsumT_true ins, (h.root con hr).1.map] at hv
  have := Nat.le_mul_of_pos_right (t.db.node con.id).maxVal (h.root con hr).1.mult
  omega

theorem encodeUbChange [LawfulVM VM] (h : e.Inv s cls ins own) (r : URange) :
    ∃ e' s', e.encodeUbChange r = some e' ∧
      e.gte.encodeUbChange r e.vm (e.cls.map (·.1)) = some (e'.gte, e'.vm, e'.cls.map (·.1)) ∧ Call e e' s s' := by
  unfold CertGte.encodeUbChange Gte.encodeUbChange
  simp only
  generalize Pb.prepareUbRange e.gte.weightSum r = range
  obtain ⟨lo, hi⟩ := range
  simp only
  by_cases he : hi ≤ lo
  · rw [if_pos he, if_pos he]
    exact ⟨e, s, rfl, rfl, CStep.refl _ _, h.good, h.inv, h.next⟩
  · rw [if_neg he, if_neg he]
    obtain ⟨t1, e1, inv1, b1, k1, k2, x1, -⟩ := h.gte.extendTree (some (hi - 1))
    have hg1 := h.gte.extendTree_good h.good _ e1
    rw [e1]
    simp only
    have c1 : CInv (ManageVars.nUsed e.vm) t1.db e.defs s := h.inv.ext x1 h.gte.core.wf
    have s1 : CStep e.st ({ e with gte := t1 } : CertGte VM).st s s :=
      stepDb e { e with gte := t1 } rfl rfl rfl (fun _ ho => ho.ext x1) s
    cases hr : t1.root with
    | none =>
      simp only
      exact ⟨_, s, rfl, rfl, s1, fun con hcon => (hg1 con hcon), c1, h.next⟩
    | some con =>
      simp only
      obtain ⟨hpc, hgap⟩ := inv1.root con hr
      have hvals := fun v => Gte.mem_rootVals hpc (lo := lo) (hi := hi + t1.maxLeafWeight) (v := v)
      generalize (t1.db.node con.id).valsRange (con.revMapRoundUp (lo + 1)) (con.revMap (hi + t1.maxLeafWeight) + 1) = vals
        at hvals ⊢
      have ci : CI ({ e with gte := t1 } : CertGte VM).st s := ⟨inv1.core.wf, inv1.core.aux, c1, h.next⟩
      obtain ⟨st', s', a1, a2, a3, a4, a5, -⟩ := defineValsCert_spec con.id vals ({ e with gte := t1 } : CertGte VM).st s
        (List.replicate (t1.db.node con.id).nLeaves (Lit.pos 0, 0)) false ci (hg1 con hr) (rootMax inv1 h.len hr)
        (by simp; rfl) (by simp) fun v hv => ((hvals v).1 hv).1
      rw [a1]
      have a2' : defineVals (⟨t1.db, e.vm, e.cls.map (·.1)⟩ : St VM) con.id vals = some st'.proj := a2
      rw [a2']
      simp only
      refine ⟨_, s', rfl, ?_, s1.trans a4, fun con' hcon => ?_, a5.inv, a5.next⟩
      · simp only [CSt.proj, List.length_map]
      · have hcon' : some con = some con' := hcon
        injection hcon' with hcon'
        rw [← hcon']
        exact (hg1 con hr).rel a3.ref

theorem reset (h : e.Inv s cls ins own) (sem : Semantics) :
    Inv { e with gte := { e.gte with db := e.gte.db.resetEncoded sem } } s cls ins own ∧
      Call e { e with gte := { e.gte with db := e.gte.db.resetEncoded sem } } s s := by
  have hi := h.inv.reset h.gte.core.wf sem
  have hg : ∀ con, e.gte.root = some con → Good (e.gte.db.resetEncoded sem) con.id :=
    fun con hid => (h.good con hid).rel (resetEncoded_rel e.gte.db sem)
  exact ⟨⟨h.gte.reset sem, hg, hi, h.next, h.len⟩,
    stepDb e { e with gte := { e.gte with db := e.gte.db.resetEncoded sem } } rfl rfl rfl (fun _ ho => ho.reset sem) s,
    hg, hi, h.next⟩

theorem encodeUb [LawfulVM VM] (h : e.Inv s cls ins own) (r : URange) :
    ∃ e' s', e.encodeUb r = some e' ∧
      e.gte.encodeUb r e.vm (e.cls.map (·.1)) = some (e'.gte, e'.vm, e'.cls.map (·.1)) ∧ Call e e' s s' := by
  obtain ⟨h1, h2⟩ := h.reset .if_
  obtain ⟨e', s', a1, a2, a3⟩ := h1.encodeUbChange r
  exact ⟨e', s', a1, a2, h2.trans a3⟩

theorem reserve [LawfulVM VM] (h : e.Inv s cls ins own) :
    ∃ t vm, e.gte.reserve e.vm = some (t, vm) ∧ Call e { e with gte := t, vm := vm } s s := by
  obtain ⟨t1, e1, inv1, b1, k1, k2, x1, -⟩ := h.gte.extendTree none
  have hg1 := h.gte.extendTree_good h.good _ e1
  have c1 : CInv (ManageVars.nUsed e.vm) t1.db e.defs s := h.inv.ext x1 h.gte.core.wf
  unfold Gte.reserve
  rw [e1]
  simp only
  cases hr : t1.root with
  | none =>
    simp only
    exact ⟨_, _, rfl, stepDb e { e with gte := t1 } rfl rfl rfl (fun _ ho => ho.ext x1) s, hg1, c1, h.next⟩
  | some con =>
    simp only
    obtain ⟨hpc, -⟩ := inv1.root con hr
    obtain ⟨st, e2, s2, c2, a2⟩ := reserveVars_spec (con.id + 1) (⟨t1.db, e.vm, []⟩ : St VM) con inv1.core.wf
      (Nat.lt_succ_self _) (Or.inr (by rw [hpc.offset]; exact Nat.zero_le _))
    rw [e2]
    simp only
    refine ⟨_, _, rfl, stepDb e { e with gte := { t1 with db := st.db }, vm := st.vm } rfl rfl rfl
      (fun _ ho => (ho.ext x1).ref s2.ref) s, fun con' hid => ?_, c1.step s2 inv1.core.wf, h.next⟩
    have hid' : t1.root = some con' := by rw [hr]; exact hid
    exact (hg1 con' hid').rel s2.ref

end Inv
end CertGte

namespace CertGteWorld
variable {VM : Type} [ManageVars VM]

/-- The invariant of all reachable states, with the state of the checker. -/
structure Inv (w : CertGteWorld VM) (s : State) : Prop where
  pb : w.pb.Inv
  enc : w.enc.Inv s w.pb.cls w.ins w.own
  run : w.checked = some s
  cls : ∀ x ∈ w.enc.cls, x.2 < s.next ∧ x.2 ∉ defIds w.enc.defs ∧ x.2 ∉ w.userIds ∧
    ∃ D, s.get x.2 = some D ∧ ∀ b, D.sat b ↔ Clause.sat b x.1
  user : ∀ n ∈ w.userIds, n < s.next ∧ n ∉ defIds w.enc.defs
  wit : ∀ v ∈ witnessVars w.enc.proof.lines, v ∈ w.own ∨ v ∈ w.subst

/-- The invariant after a certified call. -/
theorem Inv.next {w w' : CertGteWorld VM} {s s' : State} (h : w.Inv s) (hc : CertGte.Call w.enc w'.enc s s') (h1 : w'.pb.Inv)
    (h2 : w'.ins = w.ins) (h3 : w'.formula = w.formula) (h4 : w'.userIds = w.userIds) (h5 : w'.subst = w.subst)
    (h6 : ∀ v ∈ w.own, v ∈ w'.own) : w'.Inv s' := by
  obtain ⟨ls, l1, l2, l3⟩ := hc.step.lines
  refine ⟨h1, ⟨h1.gte, hc.good, hc.inv, hc.next, by rw [h2]; exact h.enc.len⟩, ?_, fun x hx => ?_, fun n hn => ?_, fun v hv => ?_⟩
  · have hr : VeriPb.run (VeriPb.start w.formula) w.enc.proof.lines = some s := h.run
    have l1' : w'.enc.proof.lines = w.enc.proof.lines ++ ls := l1
    unfold checked
    rw [h3, l1', run_append, hr]
    exact l2
  · obtain ⟨new, e, hnew⟩ := hc.step.cls
    have e' : w'.enc.cls = w.enc.cls ++ new := e
    rw [e'] at hx
    rcases List.mem_append.1 hx with hx | hx
    · obtain ⟨a1, a2, a3, D, a4, a5⟩ := h.cls x hx
      refine ⟨Nat.lt_of_lt_of_le a1 hc.step.grow.next, fun hd => ?_, by rw [h4]; exact a3, D,
        by rw [hc.step.grow.keep _ a1]; exact a4, a5⟩
      rcases hc.step.ids _ hd with hd | hd
      · exact a2 hd
      · omega
    · obtain ⟨⟨a1, a2, a3⟩, a4⟩ := hnew x hx
      refine ⟨a2, a3, fun hu => ?_, a4⟩
      rw [h4] at hu
      have := (h.user _ hu).1
      omega
  · rw [h4] at hn
    obtain ⟨a1, a2⟩ := h.user n hn
    refine ⟨Nat.lt_of_lt_of_le a1 hc.step.grow.next, fun hd => ?_⟩
    rcases hc.step.ids _ hd with hd | hd
    · exact a2 hd
    · omega
  · have l1' : w'.enc.proof.lines = w.enc.proof.lines ++ ls := l1
    rw [l1', witnessVars_append] at hv
    rcases List.mem_append.1 hv with hv | hv
    · exact (h.wit v hv).imp (h6 v) fun hh => by rw [h5]; exact hh
    · obtain ⟨i, k, val, l, ho, rfl⟩ := l3 v hv
      exact Or.inl (h1.gte.core.outOwn i k val l ho)

theorem start_inv (lits : List (Lit × Nat)) (vm : VM) (formula : List Constr) (hd : (lits.map (·.1)).Nodup)
    (hl : ∀ x ∈ lits, 0 < x.2 ∧ x.1.var < ManageVars.nUsed vm)
    (hf : ∀ c ∈ formula, ∀ t ∈ c.sum, t.2.var < ManageVars.nUsed vm) (hn : (lits.map (·.2)).sum < isizeMax) :
    (start lits vm formula).Inv (VeriPb.start formula) := by
  have hi := GteWorld.start_inv lits vm hd hl
  have hnode : ∀ i, Db.empty.node i = .dummy := fun i => by simp [Db.empty, Db.node]
  have hout : ∀ i k v l, ¬ OutAt Db.empty i k v l := by
    rintro i k v l ⟨s, hs⟩; rw [hnode] at hs; cases hs
  have hcon : ∀ D ∈ (VeriPb.start formula).constrs, ∃ c ∈ formula, D = ofConstr c := by
    intro D hD
    obtain ⟨x, hx, rfl⟩ := List.mem_map.1 hD
    obtain ⟨y, hy, rfl⟩ := List.mem_map.1 hx
    obtain ⟨c, i⟩ := y
    have := List.mem_zipIdx hy
    refine ⟨c, ?_, rfl⟩
    rw [this.2.2]
    exact List.getElem_mem _
  refine ⟨hi, ⟨hi.gte, (fun id h => by cases h), ⟨fun D hD => ?_, fun D hD v hv => ?_, (fun i k e he => by cases he), (fun n hn => by cases hn)⟩,
    rfl, hn⟩, rfl, (fun x hx => by cases hx), fun n hn => ?_, (fun v hv => by cases hv)⟩
  · obtain ⟨c, -, rfl⟩ := hcon D hD
    exact sorted_ofConstr c
  · obtain ⟨c, hc, rfl⟩ := hcon D hD
    obtain ⟨t, ht, rfl⟩ := has_ofConstr hv
    exact ⟨hf c hc t ht, fun i k val l ho => absurd ho (hout i k val l)⟩
  · have : n ∈ List.range' 1 formula.length := hn
    rw [List.mem_range'_1] at this
    refine ⟨?_, fun hh => by cases hh⟩
    show n < formula.length + 1
    omega

/-- Allowed operations do not panic; they do what happens without proof logging, and the invariant is kept. -/
theorem step_spec [LawfulVM VM] (w : CertGteWorld VM) {s : State} (hw : w.Inv s) (op : CertGteOp VM) (ha : w.allowed op) :
    ∃ w' s', w.step op = some w' ∧ w'.Inv s' ∧
      match op with | .pb op => w.pb.step op = some w'.pb | .line _ => w'.pb = w.pb := by
  have enc : ∀ {r : Option (CertGte VM)} {c : Option (Gte × VM × ClauseSet)} {e' : CertGte VM} {s' : State}
      (cop : GteOp VM) (ub : Nat → Prop), r = some e' → c = some (e'.gte, e'.vm, e'.cls.map (·.1)) →
      CertGte.Call w.enc e' s s' → w.pb.allowed cop → w.pb.step cop = w.pb.encoded c ub →
      ∃ w' s', w.encoded r ub = some w' ∧ w'.Inv s' ∧ w.pb.step cop = some w'.pb := by
    intro r c e' s' cop ub hr hc hcall hal hst
    subst hr hc
    obtain ⟨w2, k1, k2⟩ := GteWorld.step_spec w.pb hw.pb cop hal
    have k3 := hst
    rw [k1] at k3
    injection k3 with k3
    refine ⟨_, s', rfl, ?_, hst⟩
    have hci : GteWorld.Inv _ := k3 ▸ k2.inv
    exact hw.next hcall hci rfl rfl rfl rfl fun v hv => List.mem_append_left _ hv
  cases op with
  | pb op =>
    obtain ⟨ha1, ha2⟩ := ha
    cases op with
    | add lits =>
      obtain ⟨w2, k1, k2⟩ := GteWorld.step_spec w.pb hw.pb _ ha1
      injection k1 with k1
      refine ⟨_, s, rfl, ?_, rfl⟩
      have hci : GteWorld.Inv (VM := VM) _ := k1 ▸ k2.inv
      refine ⟨hci, ⟨hci.gte, hw.enc.good, hw.enc.inv, hw.enc.next, ?_⟩, hw.run, hw.cls, hw.user, hw.wit⟩
      rw [List.map_append, List.sum_append]
      exact ha2
    | encodeUb r =>
      obtain ⟨e', s', a1, a2, a3⟩ := hw.enc.encodeUb r
      exact enc (.encodeUb r) _ a1 a2 a3 ha1 rfl
    | encodeUbChange r =>
      obtain ⟨e', s', a1, a2, a3⟩ := hw.enc.encodeUbChange r
      exact enc (.encodeUbChange r) _ a1 a2 a3 ha1 rfl
    | reserve =>
      obtain ⟨t, vm, a1, a2⟩ := hw.enc.reserve
      exact enc (c := (w.enc.gte.reserve w.enc.vm).map fun (t, vm) => (t, vm, w.pb.cls)) .reserve _ (by rw [a1]; rfl)
        (by rw [a1]; rfl) a2 ha1 rfl
    | rehash buffer =>
      obtain ⟨w2, k1, k2⟩ := GteWorld.step_spec w.pb hw.pb _ ha1
      injection k1 with k1
      refine ⟨_, s, rfl, ?_, rfl⟩
      have hci : GteWorld.Inv (VM := VM) _ := k1 ▸ k2.inv
      exact ⟨hci, ⟨hci.gte, hw.enc.good, hw.enc.inv, hw.enc.next, hw.enc.len⟩, hw.run, hw.cls, hw.user, hw.wit⟩
    | useVars vm =>
      obtain ⟨w2, k1, k2⟩ := GteWorld.step_spec w.pb hw.pb _ ha1
      injection k1 with k1
      refine ⟨_, s, rfl, ?_, rfl⟩
      have hci : GteWorld.Inv (VM := VM) _ := k1 ▸ k2.inv
      exact ⟨hci, ⟨hci.gte, hw.enc.good, hw.enc.inv.more ha1, hw.enc.next, hw.enc.len⟩, hw.run, hw.cls, hw.user, hw.wit⟩
  | line l =>
    obtain ⟨s0, s', h1, h2, h3, h4⟩ := ha
    rw [hw.run] at h1
    injection h1 with h1
    subst h1
    obtain ⟨e1, e2, e3, e4⟩ := step_effect h2
    have hmine : ∀ id ∈ l.deleted, id ∉ defIds w.enc.defs := fun id hid => (hw.user id (h3 id hid)).2
    have hci := hw.enc.inv.user h2 (fun v hv => by
      obtain ⟨a1, a2⟩ := h4 v hv
      rcases a2 with a2 | ⟨D, hD, a2⟩
      · exact ⟨a1, fun i k val x ho hx => absurd (hx ▸ hw.enc.gte.core.outOwn i k val x ho) a2⟩
      · exact hw.enc.inv.cov D hD v a2) hmine
    have hnew : ∀ {ids : List Nat}, ids = w.userIds ∨ (ids = w.enc.proof.nextId :: w.userIds ∧ s'.next = s.next + 1) →
        (∀ x ∈ w.enc.cls, x.2 ∉ ids) ∧ ∀ n ∈ ids, n < s'.next ∧ n ∉ defIds w.enc.defs := by
      rintro ids (rfl | ⟨rfl, hn⟩)
      · exact ⟨fun x hx => (hw.cls x hx).2.2.1, fun n hn => ⟨Nat.lt_of_lt_of_le (hw.user n hn).1 e1, (hw.user n hn).2⟩⟩
      · rw [← hw.enc.next]
        refine ⟨fun x hx hm => ?_, fun n hm => ?_⟩
        · rcases List.mem_cons.1 hm with hm | hm
          · have := (hw.cls x hx).1; omega
          · exact (hw.cls x hx).2.2.1 hm
        · rcases List.mem_cons.1 hm with rfl | hm
          · exact ⟨by omega, fun hd => by have := (hw.enc.inv.ids _ hd).1; omega⟩
          · exact ⟨Nat.lt_of_lt_of_le (hw.user n hm).1 e1, (hw.user n hm).2⟩
    refine ⟨_, s', rfl, ?_, rfl⟩
    obtain ⟨f1, f2⟩ := hnew (ids := l.addId w.enc.proof.nextId w.userIds) (by
      have := e2 _ hw.enc.next
      rw [hw.enc.next]
      cases l with
      | del ids => exact Or.inl rfl
      | pol ops => exact Or.inr ⟨rfl, this⟩
      | rup c hints => exact Or.inr ⟨rfl, this⟩
      | red c w => exact Or.inr ⟨rfl, this⟩)
    refine ⟨hw.pb, ⟨hw.enc.gte, hw.enc.good, hci, e2 _ hw.enc.next, hw.enc.len⟩, ?_, fun x hx => ?_, f2, fun v hv => ?_⟩
    · unfold checked
      simp only [CertWorld.write_lines]
      have hr : VeriPb.run (VeriPb.start w.formula) w.enc.proof.lines = some s := hw.run
      rw [run_append, hr]
      simp only [Option.bind_some, VeriPb.run, h2]
    · obtain ⟨a1, a2, a3, D, a4, a5⟩ := hw.cls x hx
      refine ⟨Nat.lt_of_lt_of_le a1 e1, a2, f1 x hx, D, ?_, a5⟩
      rw [e3 _ a1 fun hd => a3 (h3 _ hd)]
      exact a4
    · simp only [CertWorld.write_lines, witnessVars_append, CertWorld.witnessVars_one] at hv
      rcases List.mem_append.1 hv with hv | hv
      · exact (hw.wit v hv).imp id fun h => List.mem_append_left _ h
      · exact Or.inr (List.mem_append_right _ hv)

theorem Reach.inv [LawfulVM VM] {w : CertGteWorld VM} (h : Reach w) : ∃ s, w.Inv s := by
  induction h with
  | start lits vm formula hd hl hf hn => exact ⟨_, start_inv lits vm formula hd hl hf hn⟩
  | step w w' op _ ha hs ih =>
    obtain ⟨s, hi⟩ := ih
    obtain ⟨w2, s2, e, i2, -⟩ := step_spec w hi op ha
    rw [e] at hs
    cases hs
    exact ⟨s2, i2⟩

/-- Forgetting the proof, a history with proof logging is one without. -/
theorem Reach.pb [LawfulVM VM] {w : CertGteWorld VM} (h : Reach w) : GteWorld.Reach (fun _ => True) w.pb := by
  induction h with
  | start lits vm formula hd hl hf hn => exact .start lits vm hd hl
  | step w w' op hr ha hs ih =>
    obtain ⟨s, hi⟩ := hr.inv
    obtain ⟨w2, s2, e, i2, k⟩ := step_spec w hi op ha
    rw [e] at hs
    injection hs with hs
    subst hs
    cases op with
    | pb op => exact .step _ _ op ih trivial ha.1 k
    | line l =>
      have k' : w2.pb = w.pb := k
      rw [k']
      exact ih

end CertGteWorld
end RustSat
