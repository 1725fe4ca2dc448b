import Verif.Lemmas.CertTotalizer
import Verif.Lemmas.EncodeConstr
import Verif.Lemmas.Rup
import Verif.Spec.CertEncode
/-
Encoding whole cardinality constraints with proof logging.
-/
namespace RustSat
open TotDb Pigeons VeriPb Card

variable {VM : Type} [ManageVars VM]

/-- What is needed of a state of the checker to continue. -/
structure In (vm : VM) (p : Proof) (s : State) : Prop where
  ok : s.Ok
  vars : ∀ D ∈ s.constrs, ∀ v, D.Has v → v < ManageVars.nUsed vm
  next : s.next = p.nextId

/-- Lines were written that are accepted; clauses were collected that are in the proof. -/
structure Logged (vm vm' : VM) (p p' : Proof) (s s' : State) (new : List (Clause × Nat)) : Prop where
  lines : ∃ ls, p'.lines = p.lines ++ ls ∧ run s ls = some s' ∧
    ∀ v ∈ witnessVars ls, ManageVars.nUsed vm ≤ v ∧ v < ManageVars.nUsed vm'
  inn : In vm' p' s'
  grow : Grow s s'
  new : ∀ x ∈ new, s.next ≤ x.2 ∧ x.2 < s'.next ∧ ∃ D, s'.get x.2 = some D ∧ ∀ b, D.sat b ↔ Clause.sat b x.1
  used : ManageVars.nUsed vm ≤ ManageVars.nUsed vm'

theorem Logged.refl {vm : VM} {p : Proof} {s : State} (h : In vm p s) : Logged vm vm p p s s [] :=
  ⟨⟨[], by simp, rfl, by simp [witnessVars]⟩, h, Grow.refl s, by simp, Nat.le_refl _⟩

theorem Logged.trans {a b c : VM} {p q r : Proof} {s t u : State} {m n : List (Clause × Nat)} (h1 : Logged a b p q s t m)
    (h2 : Logged b c q r t u n) : Logged a c p r s u (m ++ n) := by
  obtain ⟨l1, a1, a2, a3⟩ := h1.lines
  obtain ⟨l2, b1, b2, b3⟩ := h2.lines
  refine ⟨⟨l1 ++ l2, by rw [b1, a1, List.append_assoc], by rw [run_append, a2]; exact b2, fun v hv => ?_⟩, h2.inn,
    h1.grow.trans h2.grow, fun x hx => ?_, Nat.le_trans h1.used h2.used⟩
  · rw [witnessVars_append] at hv
    have u1 := h1.used
    have u2 := h2.used
    rcases List.mem_append.1 hv with hv | hv
    · have := a3 v hv; omega
    · have := b3 v hv; omega
  · have g1 := h1.grow.next
    have g2 := h2.grow.next
    rcases List.mem_append.1 hx with hx | hx
    · obtain ⟨c1, c2, D, c3, c4⟩ := h1.new x hx
      exact ⟨c1, by omega, D, by rw [h2.grow.keep _ c2]; exact c3, c4⟩
    · obtain ⟨c1, c2, c3⟩ := h2.new x hx
      exact ⟨by omega, c2, c3⟩

/-- Writing one line that derives a clause. -/
theorem Logged.one {vm : VM} {p : Proof} {s : State} (h : In vm p s) {l : Line} {D : Ineq} (hs : step s l = some (s.push D))
    (hl : witnessVars [l] = []) (hD : Sorted D.terms) (hv : ∀ v, D.Has v → v < ManageVars.nUsed vm) {c : Clause}
    (hc : ∀ b, D.sat b ↔ Clause.sat b c) :
    Logged vm vm p (p.push l).2 s (s.push D) [(c, p.nextId)] := by
  refine ⟨⟨[l], rfl, ?_, by rw [hl]; simp⟩, ⟨fun E hE => ?_, fun E hE v hh => ?_, by show s.next + 1 = p.nextId + 1; rw [h.next]⟩,
    Grow.push s D, fun x hx => ?_, Nat.le_refl _⟩
  · simp only [run, hs]
  · rcases mem_push.1 hE with rfl | hE
    · exact hD
    · exact h.ok E hE
  · rcases mem_push.1 hE with rfl | hE
    · exact hv v hh
    · exact h.vars E hE v hh
  · simp only [List.mem_singleton] at hx
    subst hx
    rw [← h.next]
    exact ⟨Nat.le_refl _, Nat.lt_succ_self _, D, get_push s D, hc⟩

theorem rupClauses_spec {vm : VM} {id : Nat} : ∀ (cs : List Clause) (cls : List (Clause × Nat)) (p : Proof) (s : State)
    (D : Ineq), In vm p s → id < s.next → s.get id = some D → (∀ c ∈ cs, ∀ b, D.sat b → Clause.sat b c) →
    (∀ c ∈ cs, ∀ l ∈ c, l.var < ManageVars.nUsed vm) →
    ∃ new p' s', rupClauses id cs cls p = (cls ++ new, p') ∧ new.map (·.1) = cs ∧ Logged vm vm p p' s s' new := by
  intro cs
  induction cs with
  | nil => intro cls p s D h _ _ _ _; exact ⟨[], p, s, by simp [rupClauses], rfl, Logged.refl h⟩
  | cons c cs ih =>
    intro cls p s D h hid hg hc hv
    have hD : Sorted D.terms := h.ok D (State.get_mem hg)
    have hstep := step_rup_clause hg hD (hc c (List.mem_cons_self ..))
    have one := Logged.one h (l := .rup (Clause.constr c) [id]) hstep rfl (sorted_ofConstr _) (fun v hh => by
      obtain ⟨t, ht, rfl⟩ := has_ofConstr hh
      obtain ⟨l, hl, rfl⟩ := List.mem_map.1 ht
      exact hv c (List.mem_cons_self ..) l hl) (fun b => sat_clause b c)
    obtain ⟨new, p', s', e1, e2, e3⟩ := ih (cls ++ [(c, p.nextId)]) _ _ D one.inn
      (Nat.lt_of_lt_of_le hid one.grow.next) (by rw [one.grow.keep _ hid]; exact hg)
      (fun c' hc' => hc c' (List.mem_cons_of_mem _ hc')) (fun c' hc' => hv c' (List.mem_cons_of_mem _ hc'))
    refine ⟨(c, p.nextId) :: new, p', s', ?_, by simp [e2], one.trans e3⟩
    show rupClauses id cs _ _ = _
    rw [show (p.reverseUnitProp (Clause.constr c) [id]).1 = p.nextId from rfl,
      show (p.reverseUnitProp (Clause.constr c) [id]).2 = (p.push (.rup (Clause.constr c) [id])).2 from rfl, e1]
    simp

/-! ### The totalizer -/

namespace CertTot

/-- Between encoding and the deletion of the definitions. -/
structure Mid (vm : VM) (p : Proof) (s : State) (e : CertTot VM) (s1 : State) (new : List (Clause × Nat)) : Prop where
  log : Logged vm e.vm p e.proof s s1 new
  sep : ∀ x ∈ new, x.2 ∉ defIds e.defs
  ids : ∀ n ∈ defIds e.defs, s.next ≤ n ∧ n < s1.next ∧ ∃ D, s1.get n = some D

theorem new_inv {lits : List Lit} {vm : VM} {p : Proof} {s : State} (cls : List (Clause × Nat)) (h : In vm p s)
    (hl : ∀ l ∈ lits, l.var < ManageVars.nUsed vm) (hn : lits.length < isizeMax) :
    (CertTot.new lits vm cls p).Inv s [] lits [] := by
  have hi := CardWorld.start_inv lits vm hl
  have hnode : ∀ i, Db.empty.node i = .dummy := fun i => by simp [Db.empty, Db.node]
  have hout : ∀ i k v l, ¬ OutAt Db.empty i k v l := by
    rintro i k v l ⟨s, hs⟩; rw [hnode] at hs; cases hs
  exact ⟨hi.tot, (fun id h => by cases h), ⟨h.ok, fun D hD v hv => ⟨h.vars D hD v hv, fun i k val l ho => absurd ho (hout i k val l)⟩,
    (fun i k e he => by cases he), (fun n hn => by cases hn)⟩, h.next, hn⟩

theorem mid_of_call {lits : List Lit} {vm : VM} {p : Proof} {s : State} {cls : List (Clause × Nat)} {e : CertTot VM} {s1 : State}
    (hc : Call (CertTot.new lits vm cls p) e s s1)
    {c : ClauseSet} (ht : e.tot.Inv (ManageVars.nUsed e.vm) c lits (CardWorld.handedOut vm e.vm)) (hu : ManageVars.nUsed vm ≤ ManageVars.nUsed e.vm) :
    ∃ new, e.cls = cls ++ new ∧ Mid vm p s e s1 new := by
  obtain ⟨new, a1, a2⟩ := hc.step.cls
  obtain ⟨ls, l1, l2, l3⟩ := hc.step.lines
  refine ⟨new, a1, ⟨⟨ls, l1, l2, fun v hv => ?_⟩, ⟨hc.inv.ok, fun D hD v hv => (hc.inv.cov D hD v hv).1, hc.next⟩, hc.step.grow,
    fun x hx => ⟨(a2 x hx).1.1, (a2 x hx).1.2.1, (a2 x hx).2⟩, hu⟩, fun x hx => (a2 x hx).1.2.2, fun n hn => ?_⟩
  · obtain ⟨i, k, val, l, ho, rfl⟩ := l3 v hv
    have := ht.core.outOwn i k val l ho
    unfold CardWorld.handedOut at this
    rw [List.mem_range'_1] at this
    omega
  · rcases hc.step.ids n hn with h | h
    · cases h
    · exact ⟨h.1, (hc.inv.ids n hn).1, (hc.inv.ids n hn).2⟩

theorem mid_derive {vm : VM} {p : Proof} {s : State} {e : CertTot VM} {s1 : State} {new : List (Clause × Nat)}
    (h : Mid vm p s e s1 new) {id n : Nat} {f g : Asg → Int} (h1 : HasDef s1 id f) (h2 : HasDef s1 n g) {l : Lit}
    (hl : ∀ b, 0 ≤ f b + g b ↔ Clause.sat b [l]) :
    ∃ e' s2 k, e.deriveUnit id (some n) l = some e' ∧ e'.tot = e.tot ∧ e'.defs = e.defs ∧ e'.vm = e.vm ∧
      e'.cls = e.cls ++ [([l], k)] ∧ Mid vm p s e' s2 (new ++ [([l], k)]) ∧ Grow s1 s2 := by
  obtain ⟨i1, D1, d1, d2⟩ := h1
  obtain ⟨i2, D2, d3, d4⟩ := h2
  have hin := h.log.inn
  have hden := (Den.id (V := fun v => v < ManageVars.nUsed e.vm) d1 (hin.ok D1 (State.get_mem d1))
    (hin.vars D1 (State.get_mem d1)) d2).add (Den.id d3 (hin.ok D2 (State.get_mem d3)) (hin.vars D2 (State.get_mem d3)) d4)
  obtain ⟨D, e1, e2, e3, e4, e5⟩ := hden.pol (by simp [Ops.add])
  have one := Logged.one hin e5 rfl e1 e2 (c := [l]) fun b => (e3 b).trans (hl b)
  refine ⟨{ e with proof := (e.proof.push (.pol (Ops.add [.id id] [.id n]).saturate)).2,
                   cls := e.cls ++ [([l], e.proof.nextId)] }, s1.push D, e.proof.nextId, ?_, rfl, rfl, rfl, rfl,
    ⟨h.log.trans one, fun x hx => ?_, fun m hm => ?_⟩, one.grow⟩
  · unfold deriveUnit
    simp only [Proof.operations, if_neg e4]
    rfl
  · rcases List.mem_append.1 hx with hx | hx
    · exact h.sep x hx
    · simp only [List.mem_singleton] at hx
      subst hx
      intro hm
      have := (h.ids _ hm).2.1
      rw [hin.next] at this
      exact absurd this (Nat.lt_irrefl _)
  · obtain ⟨a1, a2, E, a3⟩ := h.ids m hm
    exact ⟨a1, Nat.lt_of_lt_of_le a2 one.grow.next, E, by rw [one.grow.keep _ a2]; exact a3⟩

theorem mid_finish {vm : VM} {p : Proof} {s : State} {e : CertTot VM} {s1 : State} {new : List (Clause × Nat)}
    (h : Mid vm p s e s1 new) : ∃ s2, Logged vm e.vm p (deleteSemantics e.st).proof s s2 new := by
  obtain ⟨ls, l1, l2, l3⟩ := h.log.lines
  have hdel : step s1 (.del (defIds e.defs)) = some { s1 with db := s1.db.filter fun x => !(defIds e.defs).contains x.1 } := by
    have : (defIds e.defs).all (fun id => (s1.get id).isSome) = true := by
      rw [List.all_eq_true]
      intro n hn
      obtain ⟨-, -, D, hD⟩ := h.ids n hn
      rw [hD]; rfl
    simp only [step, this, if_true]
  have sub : ∀ D ∈ (⟨s1.db.filter fun x => !(defIds e.defs).contains x.1, s1.next⟩ : State).constrs, D ∈ s1.constrs := by
    intro D hD
    obtain ⟨x, hx, rfl⟩ := List.mem_map.1 hD
    exact List.mem_map.2 ⟨x, (List.mem_filter.1 hx).1, rfl⟩
  refine ⟨{ s1 with db := s1.db.filter fun x => !(defIds e.defs).contains x.1 },
    ⟨ls ++ [.del (defIds e.defs)], ?_, ?_, ?_⟩, ⟨fun D hD => h.log.inn.ok D (sub D hD), fun D hD => h.log.inn.vars D (sub D hD), h.log.inn.next⟩,
    ⟨h.log.grow.next, fun n hn => ?_⟩, fun x hx => ?_, h.log.used⟩
  · show e.proof.lines ++ _ = _
    rw [l1, List.append_assoc]; rfl
  · rw [run_append, l2]
    simp only [Option.bind_some, run, hdel]
  · intro v hv
    rw [witnessVars_append] at hv
    rcases List.mem_append.1 hv with hv | hv
    · exact l3 v hv
    · cases hv
  · have hni : n ∉ defIds e.defs := fun hm => by have := (h.ids n hm).1; omega
    rw [← h.log.grow.keep n hn]
    exact lookup_filter _ hni s1.db
  · obtain ⟨a1, a2, D, a3, a4⟩ := h.log.new x hx
    refine ⟨a1, a2, D, ?_, a4⟩
    rw [← a3]
    exact lookup_filter _ (h.sep x hx) s1.db

end CertTot

theorem Totalizer.extendTree_nil {t : Totalizer} (h : t.litBuffer = []) : t.extendTree = some t := by
  unfold Totalizer.extendTree
  have e : litTree t.db t.litBuffer = (none, t.db) := by rw [h]; rfl
  rw [e]
  simp only
  rw [← h]

theorem Totalizer.Inv.enforceUb_eq {t : Totalizer} {n : Nat} {c : ClauseSet} {lits : List Lit} {own : List Nat}
    (ht : t.Inv n c lits own) (hbuf : t.litBuffer = []) {root b : Nat} {o : Lit} (hr : t.root = some root)
    (ho : HasLit t.db root b .if_ o) (hb : b < lits.length) : t.enforceUb b = .ok [o.neg] := by
  rcases ht.enforceUb_cases b with ⟨g, -⟩ | ⟨-, -, g⟩ | ⟨-, -, id', l', g1, g2, g3⟩
  · omega
  · exact absurd ⟨hbuf, root, o, hr, ho⟩ g
  · rw [hr] at g1
    injection g1 with g1
    subst g1
    have := g2.litAt
    rw [ho.litAt] at this
    injection this with this
    rw [this]
    exact g3

theorem Totalizer.Inv.enforceLb_eq {t : Totalizer} {n : Nat} {c : ClauseSet} {lits : List Lit} {own : List Nat}
    (ht : t.Inv n c lits own) (hbuf : t.litBuffer = []) {root b : Nat} {o : Lit} (hr : t.root = some root)
    (ho : HasLit t.db root (b - 1) .onlyIf o) (h0 : 0 < b) (hb : b ≤ lits.length) : t.enforceLb b = .ok [o] := by
  rcases ht.enforceLb_cases b with ⟨g, -⟩ | ⟨g, -⟩ | ⟨-, -, -, g⟩ | ⟨-, -, -, id', l', g1, g2, g3⟩
  · omega
  · omega
  · exact absurd ⟨hbuf, root, o, hr, ho⟩ g
  · rw [hr] at g1
    injection g1 with g1
    subst g1
    have := g2.litAt
    rw [ho.litAt] at this
    injection this with this
    rw [this]
    exact g3

namespace CertTot
namespace Inv
variable {e : CertTot VM} {s : State} {cls : ClauseSet} {ins : List Lit} {own : List Nat}

/-- After defining an output that was not defined before, the semantic definitions are stored. -/
theorem lookup_defineOutputs [LawfulVM VM] (h : e.Inv s cls ins own) {sem : Semantics} {i : Nat} (hi : i < ins.length)
    (h2 : 2 ≤ ins.length) (hsem : sem = .if_ ∧ ¬ e.tot.MarkUb i ∨ sem = .onlyIf ∧ ¬ e.tot.MarkLb i) {e' : CertTot VM}
    (he : e.defineOutputs sem [i] = some e') :
    ∃ id d, e'.tot.root = some id ∧ e'.defs.lookup (id, i + 1) = some d ∧ (e.tot.litBuffer = [] → e.tot.root = some id) := by
  unfold CertTot.defineOutputs at he
  simp only [List.isEmpty_cons, Bool.false_eq_true, if_false] at he
  obtain ⟨t1, e1, inv1, b1, k1, k2, k3, k4, x1, tr1⟩ := h.tot.extendTree
  have hg1 := h.tot.extendTree_good h.good e1
  rw [e1] at he
  simp only at he
  obtain ⟨id, hr⟩ := k4 (by intro h0; rw [h0] at hi; exact absurd hi (Nat.not_lt_zero _))
  obtain ⟨r1, r2⟩ := inv1.root id hr
  have hlen := inv1.rootLen b1 hr
  have c1 : CInv (ManageVars.nUsed e.vm) t1.db e.defs s := h.inv.ext x1 h.tot.core.wf
  have ci : CI ({ e with tot := t1 } : CertTot VM).st s := ⟨inv1.core.wf, inv1.core.aux, c1, h.next⟩
  have hoff := inv1.off
  obtain ⟨l, st1, lv1, in1, s1, a1, a2, a3, a4, a5, a6, a7, -, -, a8⟩ :=
    defineCert_spec (id + 1) ({ e with tot := t1 } : CertTot VM).st s id i sem (List.replicate (t1.db.node id).nLeaves (Lit.pos 0))
      false false ci (hg1 id hr) r2 (by show i < (t1.db.node id).len; rw [hlen]; exact hi)
      (Nat.lt_succ_self _) (by show (t1.db.node id).len < _; rw [hlen]; exact h.len) (by simp; rfl) (by simp)
  rw [hr] at he
  simp only [hoff, List.map_cons, List.map_nil, Nat.add_zero, defineAllCert, a1] at he
  injection he with he
  subst he
  obtain ⟨d, hd⟩ := a8 (by
    intro l hret
    have hret' : precond t1.db id i sem = .ret l := hret
    have nUb : ¬ (e.tot.MarkUb i) → ¬ MarkedIf t1.db id i := fun hm hh =>
      ((tr1 (fun _ => False) .if_).mUb i ⟨b1, id, hr, hh⟩).elim hm fun x => x.1
    have nLb : ¬ (e.tot.MarkLb i) → ¬ MarkedOnly t1.db id i := fun hm hh =>
      ((tr1 (fun _ => False) .if_).mLb i ⟨b1, id, hr, hh⟩).elim hm fun x => x.1
    cases hn : t1.db.node id with
    | dummy => rw [hn] at hlen; have : (0 : Nat) = ins.length := hlen; omega
    | leaf x => rw [hn] at hlen; have : (1 : Nat) = ins.length := hlen; omega
    | general => rw [hn] at r2; cases r2
    | unit lits dp nl lc rc =>
      rw [hn] at hlen
      have hlen' : lits.length = ins.length := hlen
      have hd : lits[i]? = some lits[i] := List.getElem?_eq_getElem (by omega)
      rw [precond_unit hn hd] at hret'
      cases hm : (lits[i]).missingSemantics sem with
      | some new =>
        rw [hm] at hret'
        simp only at hret'
        split at hret' <;> cases hret'
      | none =>
        obtain ⟨x, q, hx, m1, m2⟩ := missing_none hm
        have hout : (t1.db.node id).outData i = some (i + 1, lits[i]) := by
          rw [hn]
          simp [Node.outData, hd]
        rcases hsem with ⟨rfl, hb⟩ | ⟨rfl, hb⟩
        · exact nUb hb ⟨_, _, hout, by rw [hx]; exact m1 rfl⟩
        · exact nLb hb ⟨_, _, hout, by rw [hx]; exact m2 rfl⟩)
  refine ⟨id, d, rfl, hd, fun hb => ?_⟩
  rw [Totalizer.extendTree_nil hb] at e1
  injection e1 with e1
  rw [e1]
  exact hr

end Inv

theorem ub_range {n b : Nat} (hb : b < n) :
    List.range' (prepareUbRange n (just b)).1 (min (prepareUbRange n (just b)).2 n - (prepareUbRange n (just b)).1) = [b] := by
  have : min (min (b + 1) n) n - b = 1 := by omega
  show List.range' b (min (min (b + 1) n) n - b) = [b]
  rw [this]; rfl

theorem lb_range {n b : Nat} (h0 : 0 < b) (hb : b ≤ n) :
    (List.range' (prepareLbRange n (just b)).1 (min (prepareLbRange n (just b)).2 (n + 1) - (prepareLbRange n (just b)).1)).map (· - 1) =
      [b - 1] := by
  have h1 : max b 1 = b := by omega
  have : min (min (b + 1) (n + 1)) (n + 1) - b = 1 := by omega
  show (List.range' (max b 1) (min (min (b + 1) (n + 1)) (n + 1) - max b 1)).map (· - 1) = [b - 1]
  rw [h1, this]; rfl

theorem Inv.encodeUbChange_just {e : CertTot VM} {s : State} {cls : ClauseSet} {ins : List Lit} {own : List Nat}
    (h : e.Inv s cls ins own) {b : Nat} (hb : b < ins.length) : e.encodeUbChange (just b) = e.defineOutputs .if_ [b] := by
  unfold CertTot.encodeUbChange
  simp only
  rw [h.tot.off, Nat.sub_zero, h.tot.nLits, ub_range hb]

theorem Inv.encodeLbChange_just {e : CertTot VM} {s : State} {cls : ClauseSet} {ins : List Lit} {own : List Nat}
    (h : e.Inv s cls ins own) {b : Nat} (h0 : 0 < b) (hb : b ≤ ins.length) :
    e.encodeLbChange (just b) = e.defineOutputs .onlyIf [b - 1] := by
  unfold CertTot.encodeLbChange
  simp only
  rw [h.tot.off, Nat.sub_zero, h.tot.nLits, lb_range h0 hb]

theorem sat_unit (b : Asg) (l : Lit) : Clause.sat b [l] ↔ l.holds b = true := by simp [Clause.sat]

/-- The upper bound from an output with its definition. -/
theorem deriveUb_spec {vm : VM} {p : Proof} {s : State} {e : CertTot VM} {s1 : State} {new : List (Clause × Nat)}
    (h : Mid vm p s e s1 new) {lits : List Lit} {c : ClauseSet} {own : List Nat}
    (ht : e.tot.Inv (ManageVars.nUsed e.vm) c lits own) (hbuf : e.tot.litBuffer = [])
    (hci : ∀ i k d, e.defs.lookup (i, k) = some d → DefOK e.tot.db s1 i k d) {root b : Nat} {d : SemDefs} {o : Lit}
    (hr : e.tot.root = some root) (hd : e.defs.lookup (root, b + 1) = some d) (ho : e.tot.db.litAt root (b + 1) = some o)
    (hb : b < lits.length) {id : Nat} (hid : HasDef s1 id fun a => b - countTrue a lits) :
    ∃ e' s2 k, e.deriveUb b id = some e' ∧ e'.tot = e.tot ∧ e'.defs = e.defs ∧ e'.vm = e.vm ∧
      e'.cls = e.cls ++ [([o.neg], k)] ∧ Mid vm p s e' s2 (new ++ [([o.neg], k)]) ∧ Grow s1 s2 := by
  have hdef := hci _ _ _ hd
  have hlen := ht.rootLen hbuf hr
  obtain ⟨r1, r2⟩ := ht.root root hr
  obtain ⟨n, d1, d2⟩ := hdef.only (by rw [maxVal_len r2, hlen]; omega)
  have hdet : e.outputProofDetails (b + 1) = .ok (o, d) := by
    unfold outputProofDetails
    rw [hr]
    simp only [ht.off, if_true, hd, ho]
  unfold deriveUb
  rw [hdet]
  simp only [d1]
  refine mid_derive h hid d2 fun a => ?_
  unfold onlyFun
  rw [ht.rootValue hbuf hr, ← countTrue_eq_cnt, ho, sat_unit, Lit.holds_neg]
  simp only [outBit, lbit]
  cases o.holds a <;> simp <;> omega

/-- The lower bound from an output with its definition. -/
theorem deriveLb_spec {vm : VM} {p : Proof} {s : State} {e : CertTot VM} {s1 : State} {new : List (Clause × Nat)}
    (h : Mid vm p s e s1 new) {lits : List Lit} {c : ClauseSet} {own : List Nat}
    (ht : e.tot.Inv (ManageVars.nUsed e.vm) c lits own) (hbuf : e.tot.litBuffer = [])
    (hci : ∀ i k d, e.defs.lookup (i, k) = some d → DefOK e.tot.db s1 i k d) {root b : Nat} {d : SemDefs} {o : Lit}
    (hr : e.tot.root = some root) (hd : e.defs.lookup (root, b) = some d) (ho : e.tot.db.litAt root b = some o)
    (h0 : 0 < b) (hb : b ≤ lits.length) {id : Nat} (hid : HasDef s1 id fun a => countTrue a lits - b) :
    ∃ e' s2 k, e.deriveLb b id = some e' ∧ e'.tot = e.tot ∧ e'.defs = e.defs ∧ e'.vm = e.vm ∧
      e'.cls = e.cls ++ [([o], k)] ∧ Mid vm p s e' s2 (new ++ [([o], k)]) ∧ Grow s1 s2 := by
  have hdef := hci _ _ _ hd
  have hlen := ht.rootLen hbuf hr
  obtain ⟨r1, r2⟩ := ht.root root hr
  obtain ⟨n, d1, d2⟩ := hdef.if_ h0
  have hdet : e.outputProofDetails b = .ok (o, d) := by
    unfold outputProofDetails
    rw [hr]
    simp only [ht.off, if_true, hd, ho]
  unfold deriveLb
  rw [hdet]
  simp only [d1]
  refine mid_derive h hid d2 fun a => ?_
  unfold ifFun
  rw [ht.rootValue hbuf hr, ← countTrue_eq_cnt, ho, sat_unit, maxVal_len r2, hlen]
  simp only [outBit, lbit]
  cases o.holds a <;> simp <;> omega


/-- What is shown about encoding a constraint: new clauses, logged, that encode it. The relation `S` says what is done without
proof logging. -/
def Post (S : CardConstraint → VM → ClauseSet → VM → ClauseSet → Prop) (c : CardConstraint) (vm : VM)
    (cls : List (Clause × Nat)) (p : Proof) (s : State) (r : VM × List (Clause × Nat) × Proof) : Prop :=
  ∃ new s', r.2.1 = cls ++ new ∧ Logged vm r.1 p r.2.2 s s' new ∧
    Encodes (varsOf c.lits) (ManageVars.nUsed vm) (ManageVars.nUsed r.1) (new.map (·.1)) c.sat ∧
    S c vm (cls.map (·.1)) r.1 (new.map (·.1))

/-- What the totalizer does without proof logging. -/
def SameTot (c : CardConstraint) (vm : VM) (cls : ClauseSet) (vm' : VM) (new : ClauseSet) : Prop :=
  c.encodeConstr Totalizer vm cls = .ok (vm', cls ++ new)

theorem ub_total [LawfulVM VM] {lits : List Lit} {b id : Nat} {vm : VM} (cls : List (Clause × Nat)) {p : Proof} {s : State}
    (h : In vm p s) (hl : ∀ l ∈ lits, l.var < ManageVars.nUsed vm) (hn : lits.length < isizeMax) (h2 : 2 ≤ lits.length)
    (hb : b < lits.length) (hid : HasDef s id fun a => b - countTrue a lits) :
    ∃ r, encodeUbConstr lits b id vm cls p = .ok r ∧ Post SameTot (.ub lits b) vm cls p s r := by
  have h0 := new_inv cls h hl hn
  obtain ⟨e1, s1, a1, a2, a3⟩ := h0.encodeUb (just b)
  have ht0 : (CertTot.new lits vm cls p).tot.Inv (ManageVars.nUsed (CertTot.new lits vm cls p).vm) [] lits [] := h0.tot
  obtain ⟨t', vm', new0, b1, b2, b3, -⟩ := ht0.encodeUb ((CertTot.new lits vm cls p).cls.map (·.1)) (just b)
  rw [a2] at b1
  injection b1 with b1
  injection b1 with q1 b1
  injection b1 with q2 q3
  subst q1 q2
  have ht1 : e1.tot.Inv (ManageVars.nUsed e1.vm) new0 lits (CardWorld.handedOut vm e1.vm) := b2.inv
  obtain ⟨new, n1, n2⟩ := mid_of_call a3 ht1 b2.used
  obtain ⟨hbuf, root, o, hr, ho⟩ := b3 b ⟨Nat.le_refl b, Nat.le_refl b⟩ hb
  -- the stored definition
  have hlk : ∃ d, e1.defs.lookup (root, b + 1) = some d := by
    obtain ⟨hr0, -⟩ := h0.reset .if_
    have a1' := (hr0.encodeUbChange_just hb).symm.trans a1
    obtain ⟨id', d, k1, k2, -⟩ := hr0.lookup_defineOutputs hb h2
      (Or.inl ⟨rfl, fun hm => by obtain ⟨-, x, hx, -⟩ := hm; cases hx⟩) a1'
    rw [hr] at k1
    injection k1 with k1
    rw [k1]
    exact ⟨d, k2⟩
  obtain ⟨d, hd⟩ := hlk
  obtain ⟨e2, s2, k, c1, c2, c3, c4, c5, c6, c7⟩ := deriveUb_spec n2 ht1 hbuf a3.inv.defs hr hd ho.litAt hb (hid.grow a3.step.grow)
  obtain ⟨s3, d1⟩ := mid_finish c6
  have hcon : encodeUbConstr lits b id vm cls p = .ok (finish e2) := by
    unfold encodeUbConstr
    rw [if_neg (by omega), a1]
    simp only [c1]
    rfl
  refine ⟨_, hcon, new ++ [([o.neg], k)], s3, ?_, d1, ?_⟩
  · show e2.cls = _
    rw [c5, n1, List.append_assoc]
  · have hEnc := addsUb (E := Totalizer) lits b vm trivial (fun x hx => ⟨Nat.zero_lt_one, hl x hx⟩) trivial (cls.map (·.1))
    obtain ⟨vm', nw, f1, f2⟩ := hEnc
    have henf := ht1.enforceUb_eq hbuf hr ho hb
    have a2' : BoundUpper.encodeUb (Encoder.new lits : Totalizer) ⟨.incl b, .incl b⟩ vm (cls.map (·.1)) =
        some (e1.tot, e1.vm, e1.cls.map (·.1)) := a2
    have henf' : EnforceUb.enforceUb e1.tot b = .ok [o.neg] := henf
    have fone : encodeOneUb Totalizer lits b vm (cls.map (·.1)) = some (e1.vm, e1.cls.map (·.1) ++ unitClauses [o.neg]) := by
      unfold encodeOneUb
      rw [a2']
      simp only [henf']
    have fnew : encodeOneUb Totalizer lits b vm (cls.map (·.1)) =
        some ((finish e2).1, cls.map (·.1) ++ (new ++ [([o.neg], k)]).map (·.1)) := by
      rw [fone, n1]
      show _ = some (e2.vm, _)
      rw [c4]
      simp [unitClauses]
    refine ⟨?_, ?_⟩
    · rw [fnew] at f1
      injection f1 with f1
      injection f1 with f1 f3
      subst f1
      have f3 := List.append_cancel_left f3
      rw [← f3] at f2
      exact f2.congr fun a => by rw [Item.value_lit]; rfl
    · unfold SameTot CardConstraint.encodeConstr
      simp only [fnew, Res.ofOption]


theorem lb_total [LawfulVM VM] {lits : List Lit} {b id : Nat} {vm : VM} (cls : List (Clause × Nat)) {p : Proof} {s : State}
    (h : In vm p s) (hl : ∀ l ∈ lits, l.var < ManageVars.nUsed vm) (hn : lits.length < isizeMax) (h2 : 2 ≤ lits.length)
    (hb0 : 0 < b) (hb : b ≤ lits.length) (hid : HasDef s id fun a => countTrue a lits - b) :
    ∃ r, encodeLbConstr lits b id vm cls p = .ok r ∧ Post SameTot (.lb lits b) vm cls p s r := by
  have h0 := new_inv cls h hl hn
  have hb1 : b - 1 + 1 = b := by omega
  obtain ⟨e1, s1, a1, a2, a3⟩ := h0.encodeLb (just b)
  have ht0 : (CertTot.new lits vm cls p).tot.Inv (ManageVars.nUsed (CertTot.new lits vm cls p).vm) [] lits [] := h0.tot
  obtain ⟨t', vm', new0, b1, b2, b3, -⟩ := ht0.encodeLb ((CertTot.new lits vm cls p).cls.map (·.1)) (just b)
  rw [a2] at b1
  injection b1 with b1
  injection b1 with q1 b1
  injection b1 with q2 q3
  subst q1 q2
  have ht1 : e1.tot.Inv (ManageVars.nUsed e1.vm) new0 lits (CardWorld.handedOut vm e1.vm) := b2.inv
  obtain ⟨new, n1, n2⟩ := mid_of_call a3 ht1 b2.used
  obtain ⟨hbuf, root, o, hr, ho⟩ := b3 (b - 1) (by rw [hb1]; exact ⟨Nat.le_refl b, Nat.le_refl b⟩) (by omega)
  -- the stored definition
  have hlk : ∃ d, e1.defs.lookup (root, b) = some d := by
    obtain ⟨hr0, -⟩ := h0.reset .onlyIf
    have a1' := (hr0.encodeLbChange_just hb0 hb).symm.trans a1
    obtain ⟨id', d, k1, k2, -⟩ := hr0.lookup_defineOutputs (i := b - 1) (by omega) h2
      (Or.inr ⟨rfl, fun hm => by obtain ⟨-, x, hx, -⟩ := hm; cases hx⟩) a1'
    rw [hr] at k1
    injection k1 with k1
    rw [k1]
    rw [hb1] at k2
    exact ⟨d, k2⟩
  obtain ⟨d, hd⟩ := hlk
  have hla := ho.litAt
  rw [hb1] at hla
  obtain ⟨e2, s2, k, c1, c2, c3, c4, c5, c6, c7⟩ := deriveLb_spec n2 ht1 hbuf a3.inv.defs hr hd hla hb0 hb (hid.grow a3.step.grow)
  obtain ⟨s3, d1⟩ := mid_finish c6
  have hcon : encodeLbConstr lits b id vm cls p = .ok (finish e2) := by
    unfold encodeLbConstr
    rw [if_neg (by omega), a1]
    simp only [c1]
    rfl
  refine ⟨_, hcon, new ++ [([o], k)], s3, ?_, d1, ?_⟩
  · show e2.cls = _
    rw [c5, n1, List.append_assoc]
  · have hEnc := addsLb (E := Totalizer) lits b vm trivial (fun x hx => ⟨Nat.zero_lt_one, hl x hx⟩)
      (by rw [Item.total_lit]; exact hb) trivial (cls.map (·.1))
    obtain ⟨vm', nw, f1, f2⟩ := hEnc
    have a2' : BoundLower.encodeLb (Encoder.new lits : Totalizer) ⟨.incl b, .incl b⟩ vm (cls.map (·.1)) =
        some (e1.tot, e1.vm, e1.cls.map (·.1)) := a2
    have henf' : EnforceLb.enforceLb e1.tot b = .ok [o] := ht1.enforceLb_eq hbuf hr ho hb0 hb
    have fone : encodeOneLb Totalizer lits b vm (cls.map (·.1)) = some (e1.vm, e1.cls.map (·.1) ++ unitClauses [o]) := by
      unfold encodeOneLb
      rw [a2']
      simp only [henf']
    have fnew : encodeOneLb Totalizer lits b vm (cls.map (·.1)) =
        some ((finish e2).1, cls.map (·.1) ++ (new ++ [([o], k)]).map (·.1)) := by
      rw [fone, n1]
      show _ = some (e2.vm, _)
      rw [c4]
      simp [unitClauses]
    refine ⟨?_, ?_⟩
    · rw [fnew] at f1
      injection f1 with f1
      injection f1 with f1 f3
      subst f1
      have f3 := List.append_cancel_left f3
      rw [← f3] at f2
      exact f2.congr fun a => by rw [Item.value_lit]; rfl
    · unfold SameTot CardConstraint.encodeConstr
      simp only [if_neg (show ¬ b > lits.length by omega), fnew, Res.ofOption]

theorem eq_total [LawfulVM VM] {lits : List Lit} {b id : Nat} {vm : VM} (cls : List (Clause × Nat)) {p : Proof} {s : State}
    (h : In vm p s) (hl : ∀ l ∈ lits, l.var < ManageVars.nUsed vm) (hn : lits.length < isizeMax)
    (hb0 : 0 < b) (hb : b < lits.length) (hid : HasDef s id fun a => countTrue a lits - b)
    (hid' : HasDef s (id + 1) fun a => b - countTrue a lits) :
    ∃ r, encodeEqConstr lits b id vm cls p = .ok r ∧ Post SameTot (.eq lits b) vm cls p s r := by
  have h0 := new_inv cls h hl hn
  have hb1 : b - 1 + 1 = b := by omega
  have h2 : 2 ≤ lits.length := by omega
  obtain ⟨e0, s0, x1, x2, x3⟩ := h0.encodeUbChange (just b)
  obtain ⟨m0, o0, i0, -⟩ := h0.afterUb x2 x3
  obtain ⟨e1, s1, y1, y2, y3⟩ := i0.encodeLbChange (just b)
  have a1 : (CertTot.new lits vm cls p).encodeBoth (just b) = some e1 := by
    unfold CertTot.encodeBoth
    rw [x1]; exact y1
  have a2 : (CertTot.new lits vm cls p).tot.encodeBoth (just b) vm (cls.map (·.1)) = some (e1.tot, e1.vm, e1.cls.map (·.1)) := by
    unfold Totalizer.encodeBoth
    have x2' : (CertTot.new lits vm cls p).tot.encodeUbChange (just b) vm (cls.map (·.1)) = _ := x2
    rw [x2']; exact y2
  have a3 := x3.trans y3
  have ht0 : (CertTot.new lits vm cls p).tot.Inv (ManageVars.nUsed (CertTot.new lits vm cls p).vm) [] lits [] := h0.tot
  obtain ⟨t', vm', new0, b1, b2, b3, b4, -⟩ := ht0.encodeBoth ((CertTot.new lits vm cls p).cls.map (·.1)) (just b)
  rw [show (CertTot.new lits vm cls p).tot.encodeBoth (just b) (CertTot.new lits vm cls p).vm
    ((CertTot.new lits vm cls p).cls.map (·.1)) = _ from a2] at b1
  injection b1 with b1
  injection b1 with q1 b1
  injection b1 with q2 q3
  subst q1 q2
  have ht1 : e1.tot.Inv (ManageVars.nUsed e1.vm) new0 lits (CardWorld.handedOut vm e1.vm) := b2.inv
  obtain ⟨new, n1, n2⟩ := mid_of_call a3 ht1 b2.used
  obtain ⟨hbuf, root, o, hr, ho⟩ := b3 b ⟨Nat.le_refl b, Nat.le_refl b⟩ hb
  obtain ⟨-, root', o', hr', ho'⟩ := b4 (b - 1) (by rw [hb1]; exact ⟨Nat.le_refl b, Nat.le_refl b⟩) (by omega)
  rw [hr] at hr'
  injection hr' with hr'
  subst hr'
  -- the stored definitions
  have hlk : (∃ d, e1.defs.lookup (root, b + 1) = some d) ∧ ∃ d, e1.defs.lookup (root, b) = some d := by
    have x1' := (h0.encodeUbChange_just hb).symm.trans x1
    obtain ⟨id1, d1, k1, k2, -⟩ := h0.lookup_defineOutputs hb h2
      (Or.inl ⟨rfl, fun hm => by obtain ⟨-, x, hx, -⟩ := hm; cases hx⟩) x1'
    obtain ⟨t'', vm'', new'', g1, g2, g3, g4, -⟩ := ht0.encodeUbChange ((CertTot.new lits vm cls p).cls.map (·.1)) (just b)
    rw [x2] at g1
    injection g1 with g1
    injection g1 with w1 g1
    subst w1
    obtain ⟨hbuf0, -⟩ := g3 b ⟨Nat.le_refl b, Nat.le_refl b⟩ hb
    have y1' := (i0.encodeLbChange_just hb0 (Nat.le_of_lt hb)).symm.trans y1
    obtain ⟨id2, d2, k3, k4, k5⟩ := i0.lookup_defineOutputs (i := b - 1) (by omega) h2
      (Or.inr ⟨rfl, fun hm => by
        rcases g4.mLb _ hm with hm | hm
        · obtain ⟨-, x, hx, -⟩ := hm; cases hx
        · cases hm.2⟩) y1'
    have k5 := k5 hbuf0
    rw [k1] at k5
    injection k5 with k5
    rw [hr] at k3
    injection k3 with k3
    rw [hb1] at k4
    subst k3
    subst k5
    exact ⟨⟨d1, y3.step.defs _ _ k2⟩, d2, k4⟩
  obtain ⟨⟨d, hd⟩, d', hd'⟩ := hlk
  have hla := ho'.litAt
  rw [hb1] at hla
  obtain ⟨e2, s2, k, c1, c2, c3, c4, c5, c6, c7⟩ := deriveUb_spec n2 ht1 hbuf a3.inv.defs hr hd ho.litAt hb (hid'.grow a3.step.grow)
  obtain ⟨e3, s3, k', v1, v2, v3, v4, v5, v6, v7⟩ := deriveLb_spec c6 (c := new0) (own := CardWorld.handedOut vm e1.vm)
    (by rw [c2, c4]; exact ht1) (by rw [c2]; exact hbuf)
    (fun i k d hh => by rw [c2]; exact (a3.inv.defs i k d (by rw [← c3]; exact hh)).grow c7) (by rw [c2]; exact hr) (by rw [c3]; exact hd')
    (by rw [c2]; exact hla) hb0 (Nat.le_of_lt hb) ((hid.grow a3.step.grow).grow c7)
  obtain ⟨s4, d1⟩ := mid_finish v6
  have hcon : encodeEqConstr lits b id vm cls p = .ok (finish e3) := by
    unfold encodeEqConstr
    rw [if_neg (by omega), a1]
    simp only [c1, v1]
    rfl
  refine ⟨_, hcon, new ++ [([o.neg], k)] ++ [([o'], k')], s4, ?_, d1, ?_⟩
  · show e3.cls = _
    rw [v5, c5, n1]
    simp
  · have hEnc := addsEq (E := Totalizer) lits b vm trivial (fun x hx => ⟨Nat.zero_lt_one, hl x hx⟩)
      (by rw [Item.total_lit]; exact Nat.le_of_lt hb) trivial (cls.map (·.1))
    obtain ⟨vm', nw, f1, f2⟩ := hEnc
    have a2' : BoundBoth.encodeBoth (Encoder.new lits : Totalizer) ⟨.incl b, .incl b⟩ vm (cls.map (·.1)) =
        some (e1.tot, e1.vm, e1.cls.map (·.1)) := a2
    have henf' : EnforceEq.enforceEq e1.tot b = .ok [o.neg, o'] := by
      show e1.tot.enforceEq b = _
      unfold Totalizer.enforceEq
      rw [ht1.enforceUb_eq hbuf hr ho hb, ht1.enforceLb_eq hbuf hr ho' hb0 (Nat.le_of_lt hb)]
      rfl
    have fone : encodeOneEq Totalizer lits b vm (cls.map (·.1)) = some (e1.vm, e1.cls.map (·.1) ++ unitClauses [o.neg, o']) := by
      unfold encodeOneEq
      rw [a2']
      simp only [henf']
    have fnew : encodeOneEq Totalizer lits b vm (cls.map (·.1)) =
        some ((finish e3).1, cls.map (·.1) ++ (new ++ [([o.neg], k)] ++ [([o'], k')]).map (·.1)) := by
      rw [fone, n1]
      show _ = some (e3.vm, _)
      rw [v4, c4]
      simp [unitClauses]
    refine ⟨?_, ?_⟩
    · rw [fnew] at f1
      injection f1 with f1
      injection f1 with f1 f3
      subst f1
      have f3 := List.append_cancel_left f3
      rw [← f3] at f2
      exact f2.congr fun a => by rw [Item.value_lit]; rfl
    · unfold SameTot CardConstraint.encodeConstr
      simp only [if_neg (show ¬ b > lits.length by omega), fnew, Res.ofOption]

end CertTot
end RustSat
