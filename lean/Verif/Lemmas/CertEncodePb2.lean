import Verif.Lemmas.CertEncodePb
import Verif.Spec.CertEncodePb
/-
Encoding whole pseudo-Boolean constraints with proof logging: what the generalized totalizer does.
-/
namespace RustSat
open TotDb Pigeons VeriPb Card

variable {VM : Type} [ManageVars VM]

/-- What is shown about encoding a constraint: new clauses, logged, that encode it. -/
def PbPost (V : Nat → Prop) (P : Asg → Prop) (vm : VM) (cls : List (Clause × Nat)) (p : Proof) (s : State)
    (r : VM × List (Clause × Nat) × Proof) : Prop :=
  ∃ new s', r.2.1 = cls ++ new ∧ Logged vm r.1 p r.2.2 s s' new ∧
    Encodes V (ManageVars.nUsed vm) (ManageVars.nUsed r.1) (new.map (·.1)) P

theorem LitMap.get_nodup : ∀ {m : LitMap}, (m.map (·.1)).Nodup → ∀ x ∈ m, m.get x.1 = some x.2 := by
  intro m
  induction m with
  | nil => intro _ x hx; cases hx
  | cons y m ih =>
    intro hn x hx
    rw [List.map_cons, List.nodup_cons] at hn
    unfold LitMap.get
    rw [List.find?_cons]
    rcases List.mem_cons.1 hx with rfl | hx
    · simp
    · have hne : (y.1 == x.1) = false := by
        rw [beq_eq_false_iff_ne]
        intro e
        exact hn.1 (e ▸ List.mem_map.2 ⟨x, hx, rfl⟩)
      rw [hne]
      exact ih hn.2 x hx

namespace CertGte
variable {vm : VM} {p : Proof} {s : State}

theorem new_inv {lits : List (Lit × Nat)} (cls : List (Clause × Nat)) (h : In vm p s) (hd : (lits.map (·.1)).Nodup)
    (hl : ∀ x ∈ lits, 0 < x.2 ∧ x.1.var < ManageVars.nUsed vm) (hn : (lits.map (·.2)).sum < isizeMax) :
    (CertGte.new lits vm cls p).Inv s [] lits [] := by
  have hi := GteWorld.start_inv lits vm hd hl
  have hnode : ∀ i, Db.empty.node i = .dummy := fun i => by simp [Db.empty, Db.node]
  have hout : ∀ i k v l, ¬ OutAt Db.empty i k v l := by
    rintro i k v l ⟨s, hs⟩; rw [hnode] at hs; cases hs
  exact ⟨hi.gte, (fun id h => by cases h), ⟨h.ok, fun D hD v hv => ⟨h.vars D hD v hv, fun i k val l ho => absurd ho (hout i k val l)⟩,
    (fun i k e he => by cases he), (fun n hn => by cases hn)⟩, h.next, hn⟩

theorem mid_of_call {lits : List (Lit × Nat)} {cls : List (Clause × Nat)} {e : CertGte VM} {s1 : State}
    (hc : Call (CertGte.new lits vm cls p) e s s1)
    {c : ClauseSet} (ht : e.gte.Inv (ManageVars.nUsed e.vm) c lits (CardWorld.handedOut vm e.vm))
    (hu : ManageVars.nUsed vm ≤ ManageVars.nUsed e.vm) :
    ∃ new, e.cls = cls ++ new ∧ CertTot.Mid vm p s e.asTot s1 new := by
  obtain ⟨new, a1, a2⟩ := hc.step.cls
  obtain ⟨ls, l1, l2, l3⟩ := hc.step.lines
  refine ⟨new, a1, ⟨⟨ls, l1, l2, fun v hv => ?_⟩, ⟨hc.inv.ok, fun D hD v hv => (hc.inv.cov D hD v hv).1, hc.next⟩, hc.step.grow,
    fun x hx => ⟨(a2 x hx).1.1, (a2 x hx).1.2.1, (a2 x hx).2⟩, hu⟩, fun x hx => (a2 x hx).1.2.2, fun n hn => ?_⟩
  · obtain ⟨i, k, val, l, ho, rfl⟩ := l3 v hv
    have := ht.core.outOwn i k val l ho
    unfold CardWorld.handedOut at this
    rw [List.mem_range'_1] at this
    have e : e.asTot.vm = e.vm := rfl
    rw [e]
    omega
  · rcases hc.step.ids n hn with h | h
    · cases h
    · exact ⟨h.1, (hc.inv.ids n hn).1, (hc.inv.ids n hn).2⟩

/-- Encoding a bound with a new encoder. -/
theorem Inv.fresh [LawfulVM VM] {e : CertGte VM} {cls : ClauseSet} {ins : List (Lit × Nat)} {own : List Nat}
    (h : e.Inv s cls ins own) (hno : ∀ i k v l, ¬ OutAt e.gte.db i k v l) {b : Nat}
    (hb0 : 0 < b) (hb : b < wsumT (fun _ => true) ins) {e' : CertGte VM}
    (he : e.encodeUbChange ⟨.incl b, .incl b⟩ = some e') :
    ∃ t1, e.gte.extendTree (some b) = some t1 ∧ e'.gte.root = t1.root ∧
      e'.gte.litBuffer = e.gte.litBuffer.filter (fun x => !Gte.fits (some b) x) ∧ e'.gte.maxLeafWeight = t1.maxLeafWeight ∧
      ∀ con, t1.root = some con → con.multiplier = 1 → ∀ v ∈ (e'.gte.db.node con.id).valsFrom 1, b < v →
        v ≤ b + t1.maxLeafWeight → ∃ d, e'.defs.lookup (con.id, v) = some d := by
  unfold CertGte.encodeUbChange at he
  simp only at he
  have hrange : Pb.prepareUbRange e.gte.weightSum ⟨.incl b, .incl b⟩ = (b, b + 1) := by
    unfold Pb.prepareUbRange
    rw [h.gte.weightSum]
    simp only [Prod.mk.injEq, true_and]
    omega
  rw [hrange] at he
  simp only at he
  rw [if_neg (by omega), Nat.add_sub_cancel] at he
  obtain ⟨t1, e1, inv1, b1, k1, k2, x1, -⟩ := h.gte.extendTree (some b)
  have hg1 := h.gte.extendTree_good h.good _ e1
  rw [e1] at he
  simp only at he
  have c1 : CInv (ManageVars.nUsed e.vm) t1.db e.defs s := h.inv.ext x1 h.gte.core.wf
  refine ⟨t1, e1, ?_⟩
  cases hr : t1.root with
  | none =>
    rw [hr] at he
    simp only at he
    injection he with he
    subst he
    exact ⟨hr, b1, rfl, fun con hcon => by cases hcon⟩
  | some con =>
    rw [hr] at he
    simp only at he
    obtain ⟨hpc, hgap⟩ := inv1.root con hr
    have hlo : 1 ≤ con.revMapRoundUp (b + 1) := by
      have := (hpc.roundUp (b + 1) 0).2 (by rw [NodeCon.map_zero]; omega)
      omega
    have hvals := fun v => Gte.mem_rootVals hpc (lo := b) (hi := b + 1 + t1.maxLeafWeight) (v := v)
    have hnd := valsRange_sorted inv1.core.wf con.id (con.revMapRoundUp (b + 1)) (con.revMap (b + 1 + t1.maxLeafWeight) + 1) hlo
    generalize (t1.db.node con.id).valsRange (con.revMapRoundUp (b + 1)) (con.revMap (b + 1 + t1.maxLeafWeight) + 1) = vals
      at hvals he hnd
    have ci : CI ({ e with gte := t1 } : CertGte VM).st s := ⟨inv1.core.wf, inv1.core.aux, c1, h.next⟩
    obtain ⟨st', s', a1, a2, a3, a4, a5, a6⟩ := defineValsCert_spec con.id vals ({ e with gte := t1 } : CertGte VM).st s
      (List.replicate (t1.db.node con.id).nLeaves (Lit.pos 0, 0)) false ci (hg1 con hr) (rootMax inv1 h.len hr)
      (by simp; rfl) (by simp) fun v hv => ((hvals v).1 hv).1
    rw [a1] at he
    simp only at he
    injection he with he
    subst he
    refine ⟨rfl, b1, rfl, fun con' hcon hm v hv hbv hvm => ?_⟩
    injection hcon with hcon
    subst hcon
    have hrel := a3.ref.node con.id
    have hdb1 : ({ e with gte := t1 } : CertGte VM).st.proj.db = t1.db := rfl
    rw [hdb1] at hrel
    have hv' : v ∈ (t1.db.node con.id).valsFrom 1 := by
      rw [← hrel.valsFrom]
      exact hv
    refine a6 (hnd.imp fun hlt => Nat.ne_of_lt hlt) v ((hvals v).2 ⟨hv', ?_, ?_⟩) fun l hl => ?_
    · rw [hpc.map, hm]; omega
    · rw [hpc.map, hm]; omega
    · rcases hl with ⟨-, h1⟩ | ⟨k, q, h1, -⟩
      · omega
      · have h1' : OutAt t1.db con.id k v l := ⟨_, h1⟩
        exact hno _ _ _ _ (x1.outAt.1 h1')

/-- Deriving the unit clauses that enforce a bound with a new encoder. -/
theorem derive_total [LawfulVM VM] {lits : List (Lit × Nat)} {b id : Nat} (cls : List (Clause × Nat))
    (h : In vm p s) (hd : (lits.map (·.1)).Nodup) (hl : ∀ x ∈ lits, 0 < x.2 ∧ x.1.var < ManageVars.nUsed vm)
    (hn : (lits.map (·.2)).sum < isizeMax) (hdom : GteDerivable lits b) (hid : HasDef s id fun a => b - wsum a lits) :
    ∃ (e1 e2 : CertGte VM) (s2 : State) (new new2 : List (Clause × Nat)) (units : List Lit),
      (CertGte.new lits vm cls p).encodeUb ⟨.incl b, .incl b⟩ = some e1 ∧
      (Gte.new lits).encodeUb ⟨.incl b, .incl b⟩ vm (cls.map (·.1)) = some (e1.gte, e1.vm, e1.cls.map (·.1)) ∧
      e1.cls = cls ++ new ∧ e1.gte.enforceUb b = .ok units ∧
      e1.deriveUnits units id (e1.gte.nextHigher b) = some e2 ∧ e2.vm = e1.vm ∧ e2.cls = e1.cls ++ new2 ∧
      new2.map (·.1) = unitClauses units ∧ CertTot.Mid vm p s e2.asTot s2 (new ++ new2) := by
  have h0 := new_inv cls h hd hl hn
  obtain ⟨e1, s1, a1, a2, a3⟩ := h0.encodeUb ⟨.incl b, .incl b⟩
  have ht0 : (CertGte.new lits vm cls p).gte.Inv (ManageVars.nUsed (CertGte.new lits vm cls p).vm) [] lits [] := h0.gte
  obtain ⟨t', vm', new0, b1, b2, b3, -⟩ := ht0.encodeUb ((CertGte.new lits vm cls p).cls.map (·.1)) ⟨.incl b, .incl b⟩
  rw [a2] at b1
  injection b1 with b1
  injection b1 with q1 b1
  injection b1 with q2 q3
  subst q1 q2
  have ht1 : e1.gte.Inv (ManageVars.nUsed e1.vm) new0 lits (CardWorld.handedOut vm e1.vm) := b2.inv
  obtain ⟨new, n1, n2⟩ := mid_of_call a3 ht1 b2.used
  rcases hdom with hdom | ⟨hsm, hwt⟩
  · refine ⟨e1, e1, s1, new, [], [], a1, a2, n1, ?_, rfl, rfl, by simp, rfl, by simpa using n2⟩
    unfold Gte.enforceUb
    rw [if_pos]
    rw [ht1.weightSum, wsumT_true]; exact hdom
  -- the bound is positive and can be exceeded
  have hsle : smallSum lits b ≤ wsumT (fun _ => true) lits := by
    have := wsumT_filter (fun _ => true) (fun x : Lit × Nat => decide (x.2 ≤ b)) lits
    unfold smallSum
    rw [← wsumT_true]
    omega
  have hb : b < wsumT (fun _ => true) lits := by omega
  have hb0 : 0 < b := by
    rcases Nat.eq_zero_or_pos b with e | e
    · exfalso
      have hnil : (lits.filter fun x => decide (x.2 ≤ b)) = [] := by
        rw [List.filter_eq_nil_iff]
        intro x hx
        have := (hl x hx).1
        simp; omega
      unfold smallSum at hsm
      rw [hnil] at hsm
      simp at hsm
    · exact e
  obtain ⟨hr0, -⟩ := h0.reset .if_
  have hnode : ∀ i, Db.empty.node i = .dummy := fun i => by simp [Db.empty, Db.node]
  have hout : ∀ i k v l, ¬ OutAt (Db.empty.resetEncoded .if_) i k v l := by
    rintro i k v l ho
    have ho' : OutAt Db.empty i k v l := (reset_outAt Db.empty .if_).1 ho
    obtain ⟨s, hs⟩ := ho'
    rw [hnode] at hs; cases hs
  obtain ⟨t1, f1, f2, f3, f4, f5⟩ := hr0.fresh hout hb0 hb a1
  have hbufN : (Gte.new lits).litBuffer = lits := LitMap.ofList_nodup lits hd
  have f3' : e1.gte.litBuffer = lits.filter fun x => !Gte.fits (some b) x := by
    rw [f3]
    show (Gte.new lits).litBuffer.filter _ = _
    rw [hbufN]
  have hfits : ∀ x : Lit × Nat, Gte.fits (some b) x = true ↔ x.2 ≤ b := fun x => by simp [Gte.fits]
  obtain ⟨g1, g2⟩ := b3 b ⟨Nat.le_refl b, Nat.le_refl b⟩ hb
  -- the root
  have hval := ht1.val
  have hsplit := fun T => wsumT_filter T (fun x : Lit × Nat => Gte.fits (some b) x) lits
  have hroot : ∃ con, e1.gte.root = some con := by
    cases hr : e1.gte.root with
    | some con => exact ⟨con, rfl⟩
    | none =>
      exfalso
      have v1 := hval fun _ => true
      unfold Gte.rootVal at v1
      rw [hr, f3'] at v1
      simp only at v1
      have v2 := hsplit fun _ => true
      have e : (lits.filter fun x => Gte.fits (some b) x) = lits.filter fun x => decide (x.2 ≤ b) :=
        List.filter_congr fun x _ => by
          by_cases hx : x.2 ≤ b
          · rw [(hfits x).2 hx, decide_eq_true hx]
          · rw [decide_eq_false hx]
            cases hf : Gte.fits (some b) x with
            | true => exact absurd ((hfits x).1 hf) hx
            | false => rfl
      rw [e] at v2
      unfold smallSum at hsm
      rw [← wsumT_true] at hsm
      omega
  obtain ⟨con, hr⟩ := hroot
  have hrt : t1.root = some con := by rw [← f2]; exact hr
  have hmul : con.multiplier = 1 := by
    refine Gte.extendTree_mult (t := { Gte.new lits with db := (Gte.new lits).db.resetEncoded .if_ }) rfl f1 hrt ?_
    have hb' : ({ Gte.new lits with db := (Gte.new lits).db.resetEncoded .if_ } : Gte).litBuffer = lits := hbufN
    rw [hb']
    rcases hwt with hwt | ⟨x, hx, y, hy, h1, h2, h3⟩
    · exact Or.inl fun x hx hf => hwt x hx ((hfits x).1 hf)
    · exact Or.inr ⟨x, hx, y, hy, (hfits x).2 h1, (hfits y).2 h2, h3⟩
  obtain ⟨hpc, hgap⟩ := ht1.root con hr
  have hmap : ∀ v, con.map v = v := fun v => by rw [hpc.map, hmul, Nat.mul_one]
  have hlo : 1 ≤ con.revMapRoundUp (b + 1) := by
    have := (hpc.roundUp (b + 1) 0).2 (by rw [NodeCon.map_zero]; omega)
    omega
  have hvals := fun v => Gte.mem_rootVals hpc (lo := b) (hi := b + e1.gte.maxLeafWeight) (v := v)
  have hsorted := valsRange_sorted ht1.core.wf con.id (con.revMapRoundUp (b + 1)) (con.revMap (b + e1.gte.maxLeafWeight) + 1) hlo
  have hbuf : e1.gte.litBuffer.any (fun x => decide (x.2 ≤ b)) = false := by
    rw [List.any_eq_false]
    intro x hx
    have := g1 x hx
    simp; omega
  have henf : ∀ ls, Gte.enforceVals (e1.gte.db.node con.id) ((e1.gte.db.node con.id).valsRange (con.revMapRoundUp (b + 1))
      (con.revMap (b + e1.gte.maxLeafWeight) + 1)) = .ok ls → e1.gte.enforceUb b = .ok (e1.gte.litBuffer.map (fun x => x.1.neg) ++ ls) := by
    intro ls e
    unfold Gte.enforceUb
    rw [if_neg (by rw [ht1.weightSum]; omega), hbuf, hr]
    simp only [Bool.false_eq_true, if_false, e]
  generalize (e1.gte.db.node con.id).valsRange (con.revMapRoundUp (b + 1)) (con.revMap (b + e1.gte.maxLeafWeight) + 1) = vals
    at hvals hsorted henf
  have hvals' : ∀ v, v ∈ vals ↔ v ∈ (e1.gte.db.node con.id).valsFrom 1 ∧ b < v ∧ v ≤ b + e1.gte.maxLeafWeight := fun v => by
    rw [hvals v, hmap]
  have hchain := Gte.chain_of_sorted ht1.core.wf hr hpc hmul vals b hsorted hvals'
  have hhas : ∀ v ∈ vals, v ∈ (e1.gte.db.node con.id).valsFrom 1 ∧ ∃ l, HasVal e1.gte.db con.id v l := fun v hv => by
    obtain ⟨v1, v2, v3⟩ := (hvals' v).1 hv
    exact ⟨v1, g2 con hr v v1 (by rw [hmap]; exact v2) (by rw [hmap]; exact v3)⟩
  have hunits := henf _ (Gte.enforceVals_eq ht1.core.wf vals hhas)
  have hlook : ∀ v ∈ vals, ∃ d, e1.defs.lookup (con.id, v) = some d := fun v hv => by
    obtain ⟨v1, v2, v3⟩ := (hvals' v).1 hv
    exact f5 con hrt hmul v v1 v2 (by rw [← f4]; exact v3)
  -- there is a value above the bound
  have hne : vals ≠ [] := by
    intro h0
    have hcv : b < conVal e1.gte.db (fun _ => true) con := by
      have v1 := hval fun _ => true
      unfold Gte.rootVal at v1
      rw [hr, f3'] at v1
      simp only at v1
      have v2 := hsplit fun _ => true
      have e : (lits.filter fun x => Gte.fits (some b) x) = lits.filter fun x => decide (x.2 ≤ b) :=
        List.filter_congr fun x _ => by
          by_cases hx : x.2 ≤ b
          · rw [(hfits x).2 hx, decide_eq_true hx]
          · rw [decide_eq_false hx]
            cases hf : Gte.fits (some b) x with
            | true => exact absurd ((hfits x).1 hf) hx
            | false => rfl
      rw [e] at v2
      unfold smallSum at hsm
      rw [← wsumT_true] at hsm
      omega
    obtain ⟨w, ⟨u, u1, u2⟩, w2, w3⟩ := hgap (fun _ => true) b hcv
    rw [hmap] at u2
    subst u2
    rcases u1.mem_vals ht1.core.wf with e | e
    · omega
    · have := (hvals' w).2 ⟨e, w2, w3⟩
      rw [h0] at this
      cases this
  have hroot : ∀ a, value e1.gte.db (trueLits a) con.id + wsum a e1.gte.litBuffer = wsum a lits := fun a => by
    have := hval (trueLits a)
    unfold Gte.rootVal at this
    rw [hr] at this
    simp only [conVal] at this
    rw [hmap] at this
    rw [wsum_eq_wsumT, wsum_eq_wsumT]
    exact this
  -- the first value
  obtain ⟨v0, vs, hv0⟩ := List.exists_cons_of_ne_nil hne
  have hnext : v0 = e1.gte.nextHigher b := by rw [hv0] at hchain; exact hchain.1
  have hm0 : v0 ∈ vals := by rw [hv0]; exact List.mem_cons_self ..
  obtain ⟨hvf0, o0, ho0⟩ := hhas v0 hm0
  obtain ⟨d0, hd0⟩ := hlook v0 hm0
  have hgt0 := ((hvals' v0).1 hm0).2.1
  have hlit0 := HasVal.litAt ht1.core.wf ho0
  have hdet : e1.outputProofDetails (e1.gte.nextHigher b) = .ok (o0, d0) := by
    rw [← hnext]
    unfold outputProofDetails
    rw [hr]
    have hpos : con.isPossible v0 = true := (hpc.isPossible v0).2 (by rw [hmul]; exact Nat.mod_one v0)
    have hrev : con.revMap v0 = v0 := by rw [hpc.revMap, hmul, Nat.div_one]
    simp only [hpos, if_true, hpc.offset, hrev, hd0, hlit0]
  have hvar0 : ManageVars.nUsed vm ≤ o0.var := by
    rcases ho0 with ⟨-, e⟩ | ⟨k, q, e, -⟩
    · omega
    · have := ht1.core.outOwn con.id k v0 o0 ⟨_, e⟩
      unfold CardWorld.handedOut at this
      rw [List.mem_range'_1] at this
      omega
  have hndb : (e1.gte.litBuffer.map (·.1)).Nodup := by
    rw [f3']
    exact hd.sublist (List.Sublist.map _ List.filter_sublist)
  have hmemb : ∀ x ∈ e1.gte.litBuffer, x ∈ lits := fun x hx => by
    rw [f3'] at hx
    exact (List.mem_filter.1 hx).1
  have hu := b2.used
  have hu' : ManageVars.nUsed vm ≤ ManageVars.nUsed e1.vm := hu
  obtain ⟨e2, s2, id2, nb, r1, r2, r3, r4, r5, r6, r7, r8, r9⟩ := derive_buffer (rest := vals.map fun v => ((e1.gte.db.litAt con.id v).getD (Lit.pos 0)).neg)
    (g := fun a => value e1.gte.db (trueLits a) con.id) (ub := b)
    e1.gte.litBuffer e1 s1 new id n2 hdet (fun x hx => by
      have := (hl x (hmemb x hx)).2
      exact ⟨LitMap.get_nodup hndb x hx, by omega, by omega, g1 x hx⟩) (by
      obtain ⟨i1, D, i2, i3⟩ := hid.grow a3.step.grow
      refine ⟨i1, D, i2, fun a => ?_⟩
      have h1 := hroot a
      have h2 : D.slack a = (b : Int) - wsum a lits := i3 a
      show D.slack a = (b : Int) - value e1.gte.db (trueLits a) con.id - wsum a e1.gte.litBuffer
      omega)
  have hch2 : e2.gte.Chain (e1.gte.nextHigher b) vals := by rw [r2]; exact hchain
  obtain ⟨e3, s3, no, t1', t2, t3, t4, t5, t6, t7⟩ := derive_outputs (ub := b) (id := id2) (con := con) vals e2 s2 (new ++ nb) (e1.gte.nextHigher b) r7
    (by rw [r2]; exact hr) (by rw [r2]; exact hpc) hmul hch2 (fun v hv => by
      rw [r2, r3]
      obtain ⟨v1, v2, v3⟩ := (hvals' v).1 hv
      obtain ⟨-, o, ho⟩ := hhas v hv
      obtain ⟨d, hd⟩ := hlook v hv
      exact ⟨v2, vals_le_max ht1.core.wf v1, ⟨o, HasVal.litAt ht1.core.wf ho⟩, d, hd, (a3.inv.defs _ _ _ hd).grow r8⟩)
    (by rw [r2]; exact r9)
  refine ⟨e1, e3, s3, new, nb ++ no, _, a1, a2, n1, hunits, ?_, by rw [t4, r4], ?_, ?_, ?_⟩
  · rw [r1, ← t1', r2]
  · rw [t5, r5, List.append_assoc]
  · rw [List.map_append, r6, t6, r2]
    simp [unitClauses]
  · rw [← List.append_assoc]; exact t7

/-- `encode_ub_constr_cert` of the generalized totalizer. -/
theorem ub_gte [LawfulVM VM] {perm : LitMap → LitMap} (hperm : ∀ m, (perm m).Perm m) {lits : List (Lit × Nat)} {b id : Nat}
    (cls : List (Clause × Nat)) (h : In vm p s) (hd : (lits.map (·.1)).Nodup)
    (hl : ∀ x ∈ lits, 0 < x.2 ∧ x.1.var < ManageVars.nUsed vm) (hn : (lits.map (·.2)).sum < isizeMax)
    (hdom : GteDerivable lits b) (hid : HasDef s id fun a => b - wsum a lits) :
    ∃ r, encodeUbConstr perm lits b id vm cls p = .ok r ∧
      PbPost (varsOf (lits.map (·.1))) (fun a => wsum a lits ≤ b) vm cls p s r := by
  unfold encodeUbConstr
  rw [if_neg (by omega), Int.natAbs_natCast]
  by_cases hgt : b > (lits.map (·.2)).sum
  · rw [if_pos hgt]
    refine ⟨_, rfl, [], s, by simp, Logged.refl h, Nat.le_refl _, (fun c hc => by cases hc), fun a _ => ?_,
      fun a _ => ⟨a, fun _ _ => rfl, fun c hc => by cases hc⟩⟩
    have := wsumT_le (trueLits a) lits
    rw [← wsum_eq_wsumT, wsumT_true] at this
    omega
  · rw [if_neg hgt]
    simp only
    have hp := hperm lits
    have hnew : ({ CertGte.new lits vm cls p with
        gte := { (CertGte.new lits vm cls p).gte with litBuffer := perm (CertGte.new lits vm cls p).gte.litBuffer } } : CertGte VM) =
        CertGte.new (perm lits) vm cls p := by
      have e1 : (CertGte.new lits vm cls p).gte.litBuffer = lits := LitMap.ofList_nodup lits hd
      have e2 : LitMap.ofList (perm lits) = perm lits := LitMap.ofList_nodup _ ((hp.map _).nodup_iff.2 hd)
      rw [e1]
      unfold CertGte.new Gte.new
      simp only [e2]
    rw [hnew]
    have hd' : ((perm lits).map (·.1)).Nodup := (hp.map _).nodup_iff.2 hd
    have hl' : ∀ x ∈ perm lits, 0 < x.2 ∧ x.1.var < ManageVars.nUsed vm := fun x hx => hl x (hp.mem_iff.1 hx)
    have hsum : ((perm lits).map (·.2)).sum = (lits.map (·.2)).sum := (hp.map _).sum_nat
    have hws : ∀ a, wsum a (perm lits) = wsum a lits := fun a => by
      rw [wsum_eq_wsumT, wsum_eq_wsumT, wsumT_perm _ hp]
    have hdom' : GteDerivable (perm lits) b := by
      rcases hdom with hdom | ⟨d1, d2⟩
      · exact Or.inl (by rw [hsum]; exact hdom)
      · refine Or.inr ⟨?_, ?_⟩
        · have e : smallSum (perm lits) b = smallSum lits b := ((hp.filter _).map _).sum_nat
          rw [e]; exact d1
        · rcases d2 with d2 | ⟨x, hx, y, hy, d3⟩
          · exact Or.inl fun x hx => d2 x (hp.mem_iff.1 hx)
          · exact Or.inr ⟨x, hp.mem_iff.2 hx, y, hp.mem_iff.2 hy, d3⟩
    obtain ⟨e1, e2, s2, new, new2, units, a1, a2, a3, a4, a5, a6, a7, a8, a9⟩ := derive_total cls h hd' hl' (by rw [hsum]; exact hn)
      hdom' (by
        obtain ⟨i1, D, i2, i3⟩ := hid
        exact ⟨i1, D, i2, fun a => by
          show D.slack a = (b : Int) - wsum a (perm lits)
          rw [hws]; exact i3 a⟩)
    obtain ⟨s3, d1⟩ := CertTot.mid_finish a9
    have hder : encodeDerive (CertGte.new (perm lits) vm cls p) b id = some (finish e2) := by
      unfold encodeDerive
      rw [a1]
      simp only [a4, a5, Option.map_some]
    rw [hder]
    refine ⟨_, rfl, new ++ new2, s3, ?_, d1, ?_⟩
    · show e2.cls = _
      rw [a7, a3, List.append_assoc]
    · have hEnc := addsUb (E := Gte) (perm lits) b vm hd' (fun x hx => hl' x hx) trivial (cls.map (·.1))
      obtain ⟨vm', nw, f1, f2⟩ := hEnc
      have fone : encodeOneUb Gte (perm lits) b vm (cls.map (·.1)) = some (e1.vm, e1.cls.map (·.1) ++ unitClauses units) := by
        unfold encodeOneUb
        have a2' : BoundUpper.encodeUb (Encoder.new (perm lits) : Gte) ⟨.incl b, .incl b⟩ vm (cls.map (·.1)) =
          some (e1.gte, e1.vm, e1.cls.map (·.1)) := a2
        have a4' : EnforceUb.enforceUb e1.gte b = .ok units := a4
        rw [a2']
        simp only [a4']
      rw [fone, a3] at f1
      injection f1 with f1
      injection f1 with f1 f3
      subst f1
      have e : (new ++ new2).map (·.1) = nw := by
        rw [List.map_append, a8]
        rw [List.map_append, List.append_assoc] at f3
        exact List.append_cancel_left f3
      rw [e]
      have hvm : (finish e2).1 = e1.vm := a6
      rw [hvm]
      refine (f2.weaken fun v hv => ?_).congr fun a => ?_
      · rw [item_vars_weighted] at hv
        obtain ⟨l, hl, rfl⟩ := hv
        exact ⟨l, (hp.map _).mem_iff.1 hl, rfl⟩
      · rw [Item.value_weighted, hws]

end CertGte
end RustSat
