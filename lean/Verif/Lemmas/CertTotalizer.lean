import Verif.Lemmas.CertDefine
import Verif.Lemmas.Totalizer2
import Verif.Spec.CertTotalizer
/-
The certified totalizer: every call does what the call without proof logging does, and the checker accepts what it
writes.
-/
namespace RustSat
namespace TotDb
open Pigeons VeriPb

theorem DefOK.lt {db : Db} {s : State} {id k : Nat} {e : SemDefs} (h : DefOK db s id k e) : id < db.nodes.length :=
  Db.node_lt h.node

theorem CInv.ext {dm : Prop} {L : List Lit} {a b : Db} (h : ExtD dm L a b) (hw : a.WF) {n : Nat} {defs : Defs} {s : State}
    (hc : CInv n a defs s) : CInv n b defs s := by
  refine ⟨hc.ok, fun D hD v hv => ?_, fun i k e he => ?_, hc.ids⟩
  · obtain ⟨h1, h2⟩ := hc.cov D hD v hv
    exact ⟨h1, fun i k val l ho hl => h2 i k val l (h.outAt.1 ho) hl⟩
  · have hd := hc.defs i k e he
    have hn := h.node hd.lt
    have hlit : b.litAt i k = a.litAt i k := by unfold Db.litAt; rw [hn]
    have f1 : ifFun b i k = ifFun a i k := by
      funext x; unfold ifFun; rw [hn, hlit, h.value hw _ hd.lt]
    have f2 : onlyFun b i k = onlyFun a i k := by
      funext x; unfold onlyFun; rw [hlit, h.value hw _ hd.lt]
    refine ⟨by rw [hn]; exact hd.rng, by rw [hn, hlit]; exact hd.mid, by rw [f1]; exact hd.if_, by rw [hn, f2]; exact hd.only,
      hd.zero, by rw [hn]; exact hd.last, by rw [hn]; exact hd.node⟩

theorem keep_of_reset {sem : Semantics} {x y : LitData} (h : LitReset sem x y) : LitKeep x y := by
  intro l s hl
  obtain ⟨s', hs'⟩ := (removeSemantics_rel sem x).1 l s hl
  exact ⟨s', by rw [show y = _ from h, hs']⟩

theorem CInv.reset {db : Db} (hw : db.WF) {n : Nat} {defs : Defs} {s : State} (hc : CInv n db defs s) (sem : Semantics) :
    CInv n (db.resetEncoded sem) defs s := by
  refine ⟨hc.ok, fun D hD v hv => ?_,
    fun i k e he => (hc.defs i k e he).rel (fun _ _ => keep_of_reset) (resetEncoded_rel db sem) hw, hc.ids⟩
  obtain ⟨h1, h2⟩ := hc.cov D hD v hv
  exact ⟨h1, fun i k val l ho hl => h2 i k val l ((reset_outAt db sem).1 ho) hl⟩

theorem CInv.more {db : Db} {n n' : Nat} (hn : n ≤ n') {defs : Defs} {s : State} (hc : CInv n db defs s) : CInv n' db defs s :=
  ⟨hc.ok, fun D hD v hv => ⟨Nat.lt_of_lt_of_le (hc.cov D hD v hv).1 hn, (hc.cov D hD v hv).2⟩, hc.defs, hc.ids⟩

variable {VM : Type}

/-- Steps that only change the database. -/
theorem CStep.db {st st' : CSt VM} (h1 : st'.proof = st.proof) (h2 : st'.cls = st.cls) (h3 : st'.defs = st.defs)
    (h4 : ∀ v, IsOut st.db v → IsOut st'.db v) (s : State) : CStep st st' s s :=
  ⟨⟨[], by simp [h1], rfl, by simp [witnessVars]⟩, fun h => by rw [h1]; exact h, Grow.refl s, ⟨[], by simp [h2], by simp⟩,
    fun _ _ h => by rw [h3]; exact h, fun n h => Or.inl (by rw [← h3]; exact h), h4⟩

theorem IsOut.ext {dm : Prop} {L : List Lit} {a b : Db} (h : ExtD dm L a b) {v : Nat} (ho : IsOut a v) : IsOut b v := by
  obtain ⟨i, k, val, l, h1, h2⟩ := ho
  exact ⟨i, k, val, l, h.outAt.2 h1, h2⟩

theorem IsOut.reset {db : Db} (sem : Semantics) {v : Nat} (ho : IsOut db v) : IsOut (db.resetEncoded sem) v := by
  obtain ⟨i, k, val, l, h1, h2⟩ := ho
  exact ⟨i, k, val, l, (reset_outAt db sem).2 h1, h2⟩

end TotDb

open TotDb Pigeons VeriPb Card

/-- Extending the tree yields a tree without offsets and length limits. -/
theorem Totalizer.Inv.extendTree_good {t t' : Totalizer} {n : Nat} {cls : ClauseSet} {ins : List Lit} {own : List Nat}
    (h : t.Inv n cls ins own) (hg : ∀ id, t.root = some id → Good t.db id) (he : t.extendTree = some t') :
    ∀ id, t'.root = some id → Good t'.db id := by
  unfold Totalizer.extendTree at he
  cases hbuf : t.litBuffer with
  | nil =>
    have e : litTree t.db t.litBuffer = (none, t.db) := by rw [hbuf]; rfl
    rw [e] at he
    injection he with he
    subst he
    exact hg
  | cons x xs =>
    have hne : t.litBuffer ≠ [] := by rw [hbuf]; simp
    obtain ⟨id, db1, e1, w1, x1, i1, g1, v1⟩ := litTree_spec h.core.wf hne
    have hgood := litTree_good h.core.wf e1
    rw [e1] at he
    cases hr : t.root with
    | none =>
      rw [hr] at he
      simp only at he
      injection he with he
      subst he
      intro id' hid
      injection hid with hid
      subst hid
      exact hgood
    | some old =>
      rw [hr] at he
      simp only at he
      obtain ⟨o1, o2⟩ := h.root old hr
      have hlc : UnitCon db1 (NodeCon.offsetWeighted old t.offset 1) := by
        rw [h.off]
        exact full_unit (Nat.lt_of_lt_of_le o1 x1.len) (by rw [x1.node o1]; exact o2)
      obtain ⟨con, db2, m1, m2, m3, m4, m5⟩ := merge_spec (mergeable_good mergeable_full fun _ _ h => FullCon.plain h) w1
        (cons := [NodeCon.offsetWeighted old t.offset 1, NodeCon.full id]) (by simp) (by
          intro c hc
          simp only [List.mem_cons, List.not_mem_nil, or_false] at hc
          rcases hc with rfl | rfl
          · exact ⟨⟨hlc, by rw [h.off]; rfl⟩, (hg old hr).ext x1⟩
          · exact ⟨⟨full_unit i1 g1, rfl⟩, hgood⟩)
      rw [m1] at he
      simp only at he
      injection he with he
      subst he
      intro id' hid
      injection hid with hid
      subst hid
      exact m4.2

namespace CertTot
variable {VM : Type} [ManageVars VM]

omit [ManageVars VM] in
theorem stepDb (e e' : CertTot VM) (h1 : e'.proof = e.proof) (h2 : e'.cls = e.cls) (h3 : e'.defs = e.defs)
    (h4 : ∀ v, IsOut e.tot.db v → IsOut e'.tot.db v) (s : State) : CStep e.st e'.st s s :=
  CStep.db (st := e.st) (st' := e'.st) h1 h2 h3 h4 s

/-- The invariant of the certified encoder with a state of the checker. -/
structure Inv (e : CertTot VM) (s : State) (cls : ClauseSet) (ins : List Lit) (own : List Nat) : Prop where
  tot : e.tot.Inv (ManageVars.nUsed e.vm) cls ins own
  good : ∀ id, e.tot.root = some id → Good e.tot.db id
  inv : CInv (ManageVars.nUsed e.vm) e.tot.db e.defs s
  next : s.next = e.proof.nextId
  len : ins.length < isizeMax

/-- A certified call: what it writes is accepted, and the invariants that concern the proof hold again. -/
structure Call (e e' : CertTot VM) (s s' : State) : Prop where
  step : CStep e.st e'.st s s'
  good : ∀ id, e'.tot.root = some id → Good e'.tot.db id
  inv : CInv (ManageVars.nUsed e'.vm) e'.tot.db e'.defs s'
  next : s'.next = e'.proof.nextId

theorem Call.trans {a b c : CertTot VM} {s t u : State} (h1 : Call a b s t) (h2 : Call b c t u) : Call a c s u :=
  ⟨h1.step.trans h2.step, h2.good, h2.inv, h2.next⟩

namespace Inv
variable {e : CertTot VM} {s : State} {cls : ClauseSet} {ins : List Lit} {own : List Nat}

theorem call (h : e.Inv s cls ins own) {e' : CertTot VM} {s' : State} (hc : Call e e' s s') {cls' : ClauseSet}
    {own' : List Nat} (ht : e'.tot.Inv (ManageVars.nUsed e'.vm) cls' ins own') : e'.Inv s' cls' ins own' :=
  ⟨ht, hc.good, hc.inv, hc.next, h.len⟩

theorem defineOutputs [LawfulVM VM] (h : e.Inv s cls ins own) (sem : Semantics) (idxs : List Nat)
    (hi : ∀ i ∈ idxs, i < e.tot.nLits) :
    ∃ e' s', e.defineOutputs sem idxs = some e' ∧
      e.tot.defineOutputs sem idxs e.vm (e.cls.map (·.1)) = some (e'.tot, e'.vm, e'.cls.map (·.1)) ∧ Call e e' s s' := by
  unfold CertTot.defineOutputs Totalizer.defineOutputs
  by_cases he : idxs = []
  · subst he
    exact ⟨e, s, rfl, rfl, CStep.refl _ _, h.good, h.inv, h.next⟩
  · have hie : idxs.isEmpty = false := by simpa using he
    rw [hie]
    simp only [Bool.false_eq_true, if_false]
    obtain ⟨t1, e1, inv1, b1, k1, k2, k3, k4, x1, tr1⟩ := h.tot.extendTree
    have hg1 := h.tot.extendTree_good h.good e1
    rw [e1]
    simp only
    have hins : ins ≠ [] := by
      intro h0
      obtain ⟨i, hi'⟩ := List.exists_mem_of_ne_nil _ he
      have := hi i hi'
      rw [h.tot.nLits, h0] at this
      exact absurd this (Nat.not_lt_zero _)
    obtain ⟨id, hr⟩ := k4 hins
    obtain ⟨r1, r2⟩ := inv1.root id hr
    have hlen := inv1.rootLen b1 hr
    have c1 : CInv (ManageVars.nUsed e.vm) t1.db e.defs s := h.inv.ext x1 h.tot.core.wf
    have ci : CI ({ e with tot := t1 } : CertTot VM).st s := ⟨inv1.core.wf, inv1.core.aux, c1, h.next⟩
    have s1 : CStep e.st ({ e with tot := t1 } : CertTot VM).st s s := stepDb e { e with tot := t1 } rfl rfl rfl (fun _ ho => ho.ext x1) s
    obtain ⟨st', s', a1, a2, a3, a4, a5⟩ := defineAllCert_spec id sem (idxs.map fun i => i + t1.offset)
      ({ e with tot := t1 } : CertTot VM).st s (List.replicate (t1.db.node id).nLeaves (Lit.pos 0)) false ci (hg1 id hr) r2 (by
        intro i hm
        obtain ⟨j, hj, rfl⟩ := List.mem_map.1 hm
        show j + t1.offset < (t1.db.node id).len
        rw [inv1.off, hlen, ← h.tot.nLits]
        exact hi j hj)
      (by show (t1.db.node id).len < _; rw [hlen]; exact h.len) (by simp; rfl) (by simp)
    rw [hr]
    simp only
    rw [a1]
    have a2' : defineAll (⟨t1.db, e.vm, e.cls.map (·.1)⟩ : St VM) id sem (idxs.map fun i => i + t1.offset) = some st'.proj := a2
    rw [a2']
    simp only
    refine ⟨_, s', rfl, ?_, ?_, fun id' hid => ?_, a5.inv, a5.next⟩
    · simp only [CSt.proj, List.length_map]
    · exact s1.trans a4
    · have hid' : some id = some id' := hid
      injection hid' with hid'
      rw [← hid']
      exact (hg1 id hr).rel a3.ref

theorem encodeUbChange [LawfulVM VM] (h : e.Inv s cls ins own) (r : URange) :
    ∃ e' s', e.encodeUbChange r = some e' ∧
      e.tot.encodeUbChange r e.vm (e.cls.map (·.1)) = some (e'.tot, e'.vm, e'.cls.map (·.1)) ∧ Call e e' s s' := by
  unfold CertTot.encodeUbChange Totalizer.encodeUbChange
  simp only
  rw [h.tot.off, Nat.sub_zero]
  exact h.defineOutputs _ _ fun i hi => (prepareUb_mem.1 hi).2

theorem encodeLbChange [LawfulVM VM] (h : e.Inv s cls ins own) (r : URange) :
    ∃ e' s', e.encodeLbChange r = some e' ∧
      e.tot.encodeLbChange r e.vm (e.cls.map (·.1)) = some (e'.tot, e'.vm, e'.cls.map (·.1)) ∧ Call e e' s s' := by
  unfold CertTot.encodeLbChange Totalizer.encodeLbChange
  simp only
  rw [h.tot.off, Nat.sub_zero]
  exact h.defineOutputs _ _ fun i hi => (prepareLb_mem.1 hi).2

theorem reset (h : e.Inv s cls ins own) (sem : Semantics) :
    Inv { e with tot := { e.tot with db := e.tot.db.resetEncoded sem } } s cls ins own ∧
      Call e { e with tot := { e.tot with db := e.tot.db.resetEncoded sem } } s s := by
  have hi := h.inv.reset h.tot.core.wf sem
  have hg : ∀ id, e.tot.root = some id → Good (e.tot.db.resetEncoded sem) id :=
    fun id hid => (h.good id hid).rel (resetEncoded_rel e.tot.db sem)
  exact ⟨⟨h.tot.reset sem, hg, hi, h.next, h.len⟩,
    stepDb e { e with tot := { e.tot with db := e.tot.db.resetEncoded sem } } rfl rfl rfl (fun _ ho => ho.reset sem) s, hg, hi, h.next⟩

theorem encodeUb [LawfulVM VM] (h : e.Inv s cls ins own) (r : URange) :
    ∃ e' s', e.encodeUb r = some e' ∧
      e.tot.encodeUb r e.vm (e.cls.map (·.1)) = some (e'.tot, e'.vm, e'.cls.map (·.1)) ∧ Call e e' s s' := by
  obtain ⟨h1, h2⟩ := h.reset .if_
  obtain ⟨e', s', a1, a2, a3⟩ := h1.encodeUbChange r
  exact ⟨e', s', a1, a2, h2.trans a3⟩

theorem encodeLb [LawfulVM VM] (h : e.Inv s cls ins own) (r : URange) :
    ∃ e' s', e.encodeLb r = some e' ∧
      e.tot.encodeLb r e.vm (e.cls.map (·.1)) = some (e'.tot, e'.vm, e'.cls.map (·.1)) ∧ Call e e' s s' := by
  obtain ⟨h1, h2⟩ := h.reset .onlyIf
  obtain ⟨e', s', a1, a2, a3⟩ := h1.encodeLbChange r
  exact ⟨e', s', a1, a2, h2.trans a3⟩

/-- The invariant after `encode_ub_change_cert`. -/
theorem afterUb [LawfulVM VM] (h : e.Inv s cls ins own) {r : URange} {e' : CertTot VM} {s' : State}
    (h1 : e.tot.encodeUbChange r e.vm (e.cls.map (·.1)) = some (e'.tot, e'.vm, e'.cls.map (·.1))) (h2 : Call e e' s s') :
    ∃ new own', e'.Inv s' (cls ++ new) ins own' ∧ e'.cls.map (·.1) = e.cls.map (·.1) ++ new := by
  obtain ⟨t', vm', new, a1, a2, -⟩ := h.tot.encodeUbChange (e.cls.map (·.1)) r
  rw [h1] at a1
  injection a1 with a1
  injection a1 with a1 a3
  injection a3 with a3 a4
  subst a1 a3
  exact ⟨new, _, h.call h2 a2.inv, a4⟩

theorem encodeBoth [LawfulVM VM] (h : e.Inv s cls ins own) (r : URange) :
    ∃ e' s', e.encodeBoth r = some e' ∧
      e.tot.encodeBoth r e.vm (e.cls.map (·.1)) = some (e'.tot, e'.vm, e'.cls.map (·.1)) ∧ Call e e' s s' := by
  unfold CertTot.encodeBoth Totalizer.encodeBoth
  obtain ⟨e1, s1, a1, a2, a3⟩ := h.encodeUbChange r
  obtain ⟨new, own', i1, -⟩ := h.afterUb a2 a3
  obtain ⟨e2, s2, b1, b2, b3⟩ := i1.encodeLbChange r
  exact ⟨e2, s2, by rw [a1]; exact b1, by rw [a2]; exact b2, a3.trans b3⟩

theorem reserve [LawfulVM VM] (h : e.Inv s cls ins own) :
    ∃ t vm, e.tot.reserve e.vm = some (t, vm) ∧ Call e { e with tot := t, vm := vm } s s := by
  obtain ⟨t1, e1, inv1, b1, k1, k2, k3, k4, x1, tr1⟩ := h.tot.extendTree
  have hg1 := h.tot.extendTree_good h.good e1
  have c1 : CInv (ManageVars.nUsed e.vm) t1.db e.defs s := h.inv.ext x1 h.tot.core.wf
  unfold Totalizer.reserve
  rw [e1]
  simp only
  cases hr : t1.root with
  | none =>
    simp only
    exact ⟨_, _, rfl, stepDb e { e with tot := t1 } rfl rfl rfl (fun _ ho => ho.ext x1) s, hg1, c1, h.next⟩
  | some id =>
    simp only
    obtain ⟨st, e2, s2, c2, a2⟩ := reserveVars_spec (id + 1) (⟨t1.db, e.vm, []⟩ : St VM) (NodeCon.full id) inv1.core.wf
      (Nat.lt_succ_self id) (Or.inr (Nat.zero_le _))
    rw [e2]
    simp only
    refine ⟨_, _, rfl, stepDb e { e with tot := { t1 with root := some id, db := st.db }, vm := st.vm } rfl rfl rfl (fun _ ho => (ho.ext x1).ref s2.ref) s, fun id' hid => ?_, c1.step s2 inv1.core.wf, h.next⟩
    have hid' : t1.root = some id' := by rw [hr]; exact hid
    exact (hg1 id' hid').rel s2.ref

end Inv
end CertTot

namespace VeriPb

theorem has_weaken {d : Ineq} {w v : Nat} (h : (d.weaken w).Has v) : d.Has v := by
  obtain ⟨t, ht, rfl⟩ := h
  exact ⟨t, (List.mem_filter.1 ht).1, rfl⟩

theorem pol_has {s : State} {ops : Ops} {d : Ineq} (h : evalOps s ops [] = some [d]) {v : Nat} (hv : d.Has v) :
    v ∈ (Line.pol ops).vars ∨ s.mentions v := by
  have := evalOps_inv (P := fun d : Ineq => ∀ v, d.Has v → v ∈ (Line.pol ops).vars ∨ s.mentions v) (s := s)
    (fun d hd v hv => Or.inr ⟨d, hd, hv⟩)
    (fun c d hc hd v hv => (has_add hv).elim (hc v) (hd v)) (fun d k hd v hv => hd v (has_mul hv))
    (fun d k _ hd v hv => hd v (has_div hv)) (fun d hd v hv => hd v (has_saturate hv))
    (fun d w hd v hv => hd v (has_weaken hv)) ops
    (fun l hl v hv => Or.inl (List.mem_filterMap.2 ⟨.ax l, hl, by rw [has_axiom hv]⟩)) h (fun d hd => nomatch hd) d (by simp)
  exact this v hv

theorem lookup_filter (ids : List Nat) {n : Nat} (hn : n ∉ ids) : ∀ db : List (Nat × Ineq),
    (db.filter fun x => !ids.contains x.1).lookup n = db.lookup n := by
  intro db
  induction db with
  | nil => rfl
  | cons x db ih =>
    obtain ⟨m, d⟩ := x
    rw [List.filter_cons]
    by_cases hm : n = m
    · subst hm
      have : ids.contains n = false := by simpa using hn
      rw [this]
      simp
    · have hb : (n == m) = false := by simpa using hm
      by_cases hc : ids.contains m = true
      · rw [hc]
        simp only [Bool.not_true, Bool.false_eq_true, if_false, List.lookup, hb]
        exact ih
      · have hc : ids.contains m = false := by simpa using hc
        rw [hc]
        simp only [Bool.not_false, if_true, List.lookup, hb]
        exact ih

/-- What any accepted line does to the state of the checker. -/
theorem step_effect {s s' : State} {l : Line} (h : step s l = some s') :
    s.next ≤ s'.next ∧ (∀ p : Proof, s.next = p.nextId → s'.next = (p.write l).nextId) ∧
      (∀ n, n < s.next → n ∉ l.deleted → s'.get n = s.get n) ∧
      ∀ D ∈ s'.constrs, D ∈ s.constrs ∨ ∀ v, D.Has v → v ∈ l.vars ∨ s.mentions v := by
  have push : ∀ {d : Ineq}, some (s.push d) = some s' → (∀ v, d.Has v → v ∈ l.vars ∨ s.mentions v) →
      (∀ p : Proof, (p.write l).nextId = p.nextId + 1) →
      s.next ≤ s'.next ∧ (∀ p : Proof, s.next = p.nextId → s'.next = (p.write l).nextId) ∧
      (∀ n, n < s.next → n ∉ l.deleted → s'.get n = s.get n) ∧
      ∀ D ∈ s'.constrs, D ∈ s.constrs ∨ ∀ v, D.Has v → v ∈ l.vars ∨ s.mentions v := by
    intro d e hv hp
    injection e with e
    subst e
    refine ⟨Nat.le_succ _, fun p hn => by rw [hp, ← hn]; rfl, fun n hn _ => get_push_ne s d (Nat.ne_of_lt hn), fun D hD => ?_⟩
    rcases mem_push.1 hD with rfl | hD
    · exact Or.inr hv
    · exact Or.inl hD
  cases l with
  | pol ops =>
    unfold step at h
    simp only at h
    cases he : evalOps s ops [] with
    | none => rw [he] at h; cases h
    | some st =>
      rw [he] at h
      match st, h, he with
      | [], h, _ => cases h
      | _ :: _ :: _, h, _ => cases h
      | [d], h, he => exact push h (fun v hv => pol_has he hv) fun _ => rfl
  | rup c hints =>
    unfold step at h
    simp only at h
    by_cases hr : rupOk s (ofConstr c) hints = true
    · rw [if_pos hr] at h
      refine push h (fun v hv => Or.inl ?_) fun _ => rfl
      obtain ⟨t, ht, rfl⟩ := has_ofConstr hv
      exact List.mem_map.2 ⟨t, ht, rfl⟩
    · rw [if_neg hr] at h; cases h
  | red c w =>
    unfold step at h
    simp only at h
    by_cases hr : redOk s (ofConstr c) w = true
    · rw [if_pos hr] at h
      refine push h (fun v hv => Or.inl ?_) fun _ => rfl
      obtain ⟨t, ht, rfl⟩ := has_ofConstr hv
      exact List.mem_map.2 ⟨t, ht, rfl⟩
    · rw [if_neg hr] at h; cases h
  | del ids =>
    unfold step at h
    simp only at h
    by_cases hr : (ids.all fun id => (s.get id).isSome) = true
    · rw [if_pos hr] at h
      injection h with h
      subst h
      refine ⟨Nat.le_refl _, fun p hn => hn, fun n _ hn => lookup_filter ids hn s.db, fun D hD => Or.inl ?_⟩
      obtain ⟨x, hx, rfl⟩ := List.mem_map.1 hD
      exact List.mem_map.2 ⟨x, (List.mem_filter.1 hx).1, rfl⟩
    · rw [if_neg hr] at h; cases h

end VeriPb

namespace TotDb
open VeriPb

theorem DefOK.keep {db : Db} {s s' : State} {id k : Nat} {e : SemDefs} (hk : ∀ n ∈ e.ids, s'.get n = s.get n)
    (hn : s.next ≤ s'.next) (hd : DefOK db s id k e) : DefOK db s' id k e := by
  refine ⟨hd.rng, hd.mid, fun h => ?_, fun h => ?_, hd.zero, hd.last, hd.node⟩
  · obtain ⟨n, h1, h2, D, h3, h4⟩ := hd.if_ h
    exact ⟨n, h1, Nat.lt_of_lt_of_le h2 hn, D, by rw [hk n (by simp [SemDefs.ids, h1])]; exact h3, h4⟩
  · obtain ⟨n, h1, h2, D, h3, h4⟩ := hd.only h
    exact ⟨n, h1, Nat.lt_of_lt_of_le h2 hn, D, by rw [hk n (by simp [SemDefs.ids, h1])]; exact h3, h4⟩

theorem mem_of_lookup {α β : Type} [BEq α] [LawfulBEq α] {x : α} {e : β} : ∀ {l : List (α × β)}, l.lookup x = some e → (x, e) ∈ l := by
  intro l
  induction l with
  | nil => intro h; cases h
  | cons y l ih =>
    obtain ⟨a, b⟩ := y
    intro h
    rw [List.lookup] at h
    cases hx : x == a with
    | true =>
      rw [hx] at h
      injection h with h
      rw [eq_of_beq hx, h]
      exact List.mem_cons_self
    | false =>
      rw [hx] at h
      exact List.mem_cons_of_mem _ (ih h)

/-- Lines of the user do not interfere. -/
theorem CInv.user {n : Nat} {db : Db} {ds : Defs} {s s' : State} (hc : CInv n db ds s) {l : Line} (h : VeriPb.step s l = some s')
    (hv : ∀ v ∈ l.vars, Covered n db ds v) (hd : ∀ id ∈ l.deleted, id ∉ defIds ds) : CInv n db ds s' := by
  obtain ⟨h1, -, h2, h3⟩ := step_effect h
  have keep : ∀ m ∈ defIds ds, s'.get m = s.get m := fun m hm => h2 m (hc.ids m hm).1 fun hh => hd m hh hm
  refine ⟨(step_sound hc.ok h).1, fun D hD v hh => ?_, fun i k e he => ?_, fun m hm => ?_⟩
  · rcases h3 D hD with h4 | h4
    · exact hc.cov D h4 v hh
    · rcases h4 v hh with h5 | ⟨E, hE, h5⟩
      · exact hv v h5
      · exact hc.cov E hE v h5
  · refine (hc.defs i k e he).keep (fun m hm => keep m ?_) h1
    exact List.mem_flatMap.2 ⟨_, mem_of_lookup he, hm⟩
  · obtain ⟨h4, D, h5⟩ := hc.ids m hm
    exact ⟨Nat.lt_of_lt_of_le h4 h1, D, by rw [keep m hm]; exact h5⟩

end TotDb

namespace CertWorld
open VeriPb
variable {VM : Type} [ManageVars VM]

/-- The invariant of all reachable states, with the state of the checker. -/
structure Inv (w : CertWorld VM) (s : State) : Prop where
  card : w.card.Inv
  enc : w.enc.Inv s w.card.cls w.ins w.own
  run : w.checked = some s
  cls : ∀ x ∈ w.enc.cls, x.2 < s.next ∧ x.2 ∉ defIds w.enc.defs ∧ x.2 ∉ w.userIds ∧
    ∃ D, s.get x.2 = some D ∧ ∀ b, D.sat b ↔ Clause.sat b x.1
  user : ∀ n ∈ w.userIds, n < s.next ∧ n ∉ defIds w.enc.defs
  wit : ∀ v ∈ witnessVars w.enc.proof.lines, v ∈ w.own ∨ v ∈ w.subst

/-- The invariant after a certified call. -/
theorem Inv.next {w w' : CertWorld VM} {s s' : State} (h : w.Inv s) (hc : CertTot.Call w.enc w'.enc s s') (h1 : w'.card.Inv)
    (h2 : w'.ins = w.ins) (h3 : w'.formula = w.formula) (h4 : w'.userIds = w.userIds) (h5 : w'.subst = w.subst)
    (h6 : ∀ v ∈ w.own, v ∈ w'.own) : w'.Inv s' := by
  obtain ⟨ls, l1, l2, l3⟩ := hc.step.lines
  refine ⟨h1, ⟨h1.tot, hc.good, hc.inv, hc.next, by rw [h2]; exact h.enc.len⟩, ?_, fun x hx => ?_, fun n hn => ?_, fun v hv => ?_⟩
  · have hr : VeriPb.run (VeriPb.start w.formula) w.enc.proof.lines = some s := h.run
    have l1' : w'.enc.proof.lines = w.enc.proof.lines ++ ls := l1
    unfold checked
    rw [h3, l1', run_append, hr]
    exact l2
  · obtain ⟨new, e, hnew⟩ := hc.step.cls
    have e' : w'.enc.cls = w.enc.cls ++ new := e
    rw [e'] at hx
    rcases List.mem_append.1 hx with hx | hx
    · obtain ⟨a1, a2, a3, D, a4, a5⟩ := h.cls x hx
      refine ⟨Nat.lt_of_lt_of_le a1 hc.step.grow.next, fun hd => ?_, by rw [h4]; exact a3, D,
        by rw [hc.step.grow.keep _ a1]; exact a4, a5⟩
      rcases hc.step.ids _ hd with hd | hd
      · exact a2 hd
      · omega
    · obtain ⟨⟨a1, a2, a3⟩, a4⟩ := hnew x hx
      refine ⟨a2, a3, fun hu => ?_, a4⟩
      rw [h4] at hu
      have := (h.user _ hu).1
      omega
  · rw [h4] at hn
    obtain ⟨a1, a2⟩ := h.user n hn
    refine ⟨Nat.lt_of_lt_of_le a1 hc.step.grow.next, fun hd => ?_⟩
    rcases hc.step.ids _ hd with hd | hd
    · exact a2 hd
    · omega
  · have l1' : w'.enc.proof.lines = w.enc.proof.lines ++ ls := l1
    rw [l1', witnessVars_append] at hv
    rcases List.mem_append.1 hv with hv | hv
    · exact (h.wit v hv).imp (h6 v) fun hh => by rw [h5]; exact hh
    · obtain ⟨i, k, val, l, ho, rfl⟩ := l3 v hv
      exact Or.inl (h1.tot.core.outOwn i k val l ho)

theorem witnessVars_one (l : Line) : witnessVars [l] = l.substituted := by
  cases l <;> simp [witnessVars, Line.substituted]

theorem write_lines (p : Proof) (l : Line) : (p.write l).lines = p.lines ++ [l] := by
  cases l <;> rfl

theorem start_inv (lits : List Lit) (vm : VM) (formula : List Constr) (hl : ∀ l ∈ lits, l.var < ManageVars.nUsed vm)
    (hf : ∀ c ∈ formula, ∀ t ∈ c.sum, t.2.var < ManageVars.nUsed vm) (hn : lits.length < isizeMax) :
    (start lits vm formula).Inv (VeriPb.start formula) := by
  have hi := CardWorld.start_inv lits vm hl
  have hnode : ∀ i, Db.empty.node i = .dummy := fun i => by simp [Db.empty, Db.node]
  have hout : ∀ i k v l, ¬ OutAt Db.empty i k v l := by
    rintro i k v l ⟨s, hs⟩; rw [hnode] at hs; cases hs
  have hcon : ∀ D ∈ (VeriPb.start formula).constrs, ∃ c ∈ formula, D = ofConstr c := by
    intro D hD
    obtain ⟨x, hx, rfl⟩ := List.mem_map.1 hD
    obtain ⟨y, hy, rfl⟩ := List.mem_map.1 hx
    obtain ⟨c, i⟩ := y
    have := List.mem_zipIdx hy
    refine ⟨c, ?_, rfl⟩
    rw [this.2.2]
    exact List.getElem_mem _
  refine ⟨hi, ⟨hi.tot, (fun id h => by cases h), ⟨fun D hD => ?_, fun D hD v hv => ?_, (fun i k e he => by cases he), (fun n hn => by cases hn)⟩,
    rfl, hn⟩, rfl, (fun x hx => by cases hx), fun n hn => ?_, (fun v hv => by cases hv)⟩
  · obtain ⟨c, -, rfl⟩ := hcon D hD
    exact sorted_ofConstr c
  · obtain ⟨c, hc, rfl⟩ := hcon D hD
    obtain ⟨t, ht, rfl⟩ := has_ofConstr hv
    exact ⟨hf c hc t ht, fun i k val l ho => absurd ho (hout i k val l)⟩
  · have : n ∈ List.range' 1 formula.length := hn
    rw [List.mem_range'_1] at this
    refine ⟨?_, fun hh => by cases hh⟩
    show n < formula.length + 1
    omega

/-- Allowed operations do not panic; they do what happens without proof logging, and the invariant is kept. -/
theorem step_spec [LawfulVM VM] (w : CertWorld VM) {s : State} (hw : w.Inv s) (op : CertOp VM) (ha : w.allowed op) :
    ∃ w' s', w.step op = some w' ∧ w'.Inv s' ∧
      match op with | .card op => w.card.step op = some w'.card | .line _ => w'.card = w.card := by
  have enc : ∀ {r : Option (CertTot VM)} {c : Option (Totalizer × VM × ClauseSet)} {e' : CertTot VM} {s' : State}
      (cop : CardOp VM) (ub lb : Nat → Prop), r = some e' → c = some (e'.tot, e'.vm, e'.cls.map (·.1)) →
      CertTot.Call w.enc e' s s' → w.card.allowed cop → w.card.step cop = w.card.encoded c ub lb →
      ∃ w' s', w.encoded r ub lb = some w' ∧ w'.Inv s' ∧ w.card.step cop = some w'.card := by
    intro r c e' s' cop ub lb hr hc hcall hal hst
    subst hr hc
    obtain ⟨w2, k1, k2⟩ := CardWorld.step_spec w.card hw.card cop hal
    have k3 := hst
    rw [k1] at k3
    injection k3 with k3
    refine ⟨_, s', rfl, ?_, hst⟩
    have hci : CardWorld.Inv _ := k3 ▸ k2.inv
    exact hw.next hcall hci rfl rfl rfl rfl fun v hv => List.mem_append_left _ hv
  cases op with
  | card op =>
    obtain ⟨ha1, ha2⟩ := ha
    cases op with
    | add lits =>
      obtain ⟨w2, k1, k2⟩ := CardWorld.step_spec w.card hw.card _ ha1
      injection k1 with k1
      refine ⟨_, s, rfl, ?_, rfl⟩
      have hci : CardWorld.Inv (VM := VM) _ := k1 ▸ k2.inv
      refine ⟨hci, ⟨hci.tot, hw.enc.good, hw.enc.inv, hw.enc.next, ?_⟩, hw.run, hw.cls, hw.user, hw.wit⟩
      rw [List.length_append]
      exact ha2
    | encodeUb r =>
      obtain ⟨e', s', a1, a2, a3⟩ := hw.enc.encodeUb r
      exact enc (.encodeUb r) _ _ a1 a2 a3 ha1 rfl
    | encodeUbChange r =>
      obtain ⟨e', s', a1, a2, a3⟩ := hw.enc.encodeUbChange r
      exact enc (.encodeUbChange r) _ _ a1 a2 a3 ha1 rfl
    | encodeLb r =>
      obtain ⟨e', s', a1, a2, a3⟩ := hw.enc.encodeLb r
      exact enc (.encodeLb r) _ _ a1 a2 a3 ha1 rfl
    | encodeLbChange r =>
      obtain ⟨e', s', a1, a2, a3⟩ := hw.enc.encodeLbChange r
      exact enc (.encodeLbChange r) _ _ a1 a2 a3 ha1 rfl
    | encodeBoth r =>
      obtain ⟨e', s', a1, a2, a3⟩ := hw.enc.encodeBoth r
      exact enc (.encodeBoth r) _ _ a1 a2 a3 ha1 rfl
    | reserve =>
      obtain ⟨t, vm, a1, a2⟩ := hw.enc.reserve
      exact enc (c := (w.enc.tot.reserve w.enc.vm).map fun (t, vm) => (t, vm, w.card.cls)) .reserve _ _ (by rw [a1]; rfl)
        (by rw [a1]; rfl) a2 ha1 rfl
    | useVars vm =>
      obtain ⟨w2, k1, k2⟩ := CardWorld.step_spec w.card hw.card _ ha1
      injection k1 with k1
      refine ⟨_, s, rfl, ?_, rfl⟩
      have hci : CardWorld.Inv (VM := VM) _ := k1 ▸ k2.inv
      exact ⟨hci, ⟨hci.tot, hw.enc.good, hw.enc.inv.more ha1, hw.enc.next, hw.enc.len⟩, hw.run, hw.cls, hw.user, hw.wit⟩
  | line l =>
    obtain ⟨s0, s', h1, h2, h3, h4⟩ := ha
    rw [hw.run] at h1
    injection h1 with h1
    subst h1
    obtain ⟨e1, e2, e3, e4⟩ := step_effect h2
    have hmine : ∀ id ∈ l.deleted, id ∉ defIds w.enc.defs := fun id hid => (hw.user id (h3 id hid)).2
    have hci := hw.enc.inv.user h2 (fun v hv => by
      obtain ⟨a1, a2⟩ := h4 v hv
      rcases a2 with a2 | ⟨D, hD, a2⟩
      · exact ⟨a1, fun i k val x ho hx => absurd (hx ▸ hw.enc.tot.core.outOwn i k val x ho) a2⟩
      · exact hw.enc.inv.cov D hD v a2) hmine
    have hnew : ∀ {ids : List Nat}, ids = w.userIds ∨ (ids = w.enc.proof.nextId :: w.userIds ∧ s'.next = s.next + 1) →
        (∀ x ∈ w.enc.cls, x.2 ∉ ids) ∧ ∀ n ∈ ids, n < s'.next ∧ n ∉ defIds w.enc.defs := by
      rintro ids (rfl | ⟨rfl, hn⟩)
      · exact ⟨fun x hx => (hw.cls x hx).2.2.1, fun n hn => ⟨Nat.lt_of_lt_of_le (hw.user n hn).1 e1, (hw.user n hn).2⟩⟩
      · rw [← hw.enc.next]
        refine ⟨fun x hx hm => ?_, fun n hm => ?_⟩
        · rcases List.mem_cons.1 hm with hm | hm
          · have := (hw.cls x hx).1; omega
          · exact (hw.cls x hx).2.2.1 hm
        · rcases List.mem_cons.1 hm with rfl | hm
          · exact ⟨by omega, fun hd => by have := (hw.enc.inv.ids _ hd).1; omega⟩
          · exact ⟨Nat.lt_of_lt_of_le (hw.user n hm).1 e1, (hw.user n hm).2⟩
    refine ⟨_, s', rfl, ?_, rfl⟩
    obtain ⟨f1, f2⟩ := hnew (ids := l.addId w.enc.proof.nextId w.userIds) (by
      have := e2 _ hw.enc.next
      rw [hw.enc.next]
      cases l with
      | del ids => exact Or.inl rfl
      | pol ops => exact Or.inr ⟨rfl, this⟩
      | rup c hints => exact Or.inr ⟨rfl, this⟩
      | red c w => exact Or.inr ⟨rfl, this⟩)
    refine ⟨hw.card, ⟨hw.enc.tot, hw.enc.good, hci, e2 _ hw.enc.next, hw.enc.len⟩, ?_, fun x hx => ?_, f2, fun v hv => ?_⟩
    · unfold checked
      simp only [write_lines]
      have hr : VeriPb.run (VeriPb.start w.formula) w.enc.proof.lines = some s := hw.run
      rw [run_append, hr]
      simp only [Option.bind_some, VeriPb.run, h2]
    · obtain ⟨a1, a2, a3, D, a4, a5⟩ := hw.cls x hx
      refine ⟨Nat.lt_of_lt_of_le a1 e1, a2, f1 x hx, D, ?_, a5⟩
      rw [e3 _ a1 fun hd => a3 (h3 _ hd)]
      exact a4
    · simp only [write_lines, witnessVars_append, witnessVars_one] at hv
      rcases List.mem_append.1 hv with hv | hv
      · exact (hw.wit v hv).imp id fun h => List.mem_append_left _ h
      · exact Or.inr (List.mem_append_right _ hv)

theorem Reach.inv [LawfulVM VM] {w : CertWorld VM} (h : Reach w) : ∃ s, w.Inv s := by
  induction h with
  | start lits vm formula hl hf hn => exact ⟨_, start_inv lits vm formula hl hf hn⟩
  | step w w' op _ ha hs ih =>
    obtain ⟨s, hi⟩ := ih
    obtain ⟨w2, s2, e, i2, -⟩ := step_spec w hi op ha
    rw [e] at hs
    cases hs
    exact ⟨s2, i2⟩

/-- Forgetting the proof, a history with proof logging is one without. -/
theorem Reach.card [LawfulVM VM] {w : CertWorld VM} (h : Reach w) : CardWorld.Reach (fun _ => True) w.card := by
  induction h with
  | start lits vm formula hl hf hn => exact .start lits vm hl
  | step w w' op hr ha hs ih =>
    obtain ⟨s, hi⟩ := hr.inv
    obtain ⟨w2, s2, e, i2, k⟩ := step_spec w hi op ha
    rw [e] at hs
    injection hs with hs
    subst hs
    cases op with
    | card op => exact .step _ _ op ih trivial ha.1 k
    | line l =>
      have k' : w2.card = w.card := k
      rw [k']
      exact ih

end CertWorld
end RustSat
