import Verif.Lemmas.CertEncode2
import Verif.Lemmas.CertGte
import Verif.Lemmas.Bound
/-
Encoding whole pseudo-Boolean constraints with proof logging: upper bounds with the generalized totalizer.
-/
namespace RustSat
open TotDb Pigeons VeriPb Card

/-! ### Division -/

namespace VeriPb

theorem lin_upd {b : Asg} {v : Nat} {a : Int} : ∀ {ts : List (Nat × Int)}, Sorted ts → (v, a) ∈ ts →
    lin (upd b v true) ts - lin (upd b v false) ts = a := by
  intro ts
  induction ts with
  | nil => intro _ h; cases h
  | cons t ts ih =>
    obtain ⟨w, c⟩ := t
    intro hs hm
    obtain ⟨h1, h2⟩ := List.pairwise_cons.1 hs
    rcases List.mem_cons.1 hm with e | hm
    · injection e with e1 e2
      subst e1 e2
      have : lin (upd b v true) ts = lin (upd b v false) ts := lin_congr fun t ht => by
        have := h1 t ht
        unfold upd
        rw [if_neg (by simp only at this; omega), if_neg (by simp only at this; omega)]
      simp only [lin, this]
      have e1 : bit (upd b v true) v = 1 := bit_true (by simp [upd])
      have e2 : bit (upd b v false) v = 0 := bit_false (by simp [upd])
      rw [e1, e2]
      omega
    · have hlt := h1 _ hm
      simp only at hlt
      have e1 : bit (upd b v true) w = bit (upd b v false) w := by
        have : upd b v true w = upd b v false w := by
          unfold upd; rw [if_neg (by omega), if_neg (by omega)]
        unfold bit; rw [this]
      have := ih h2 hm
      simp only [lin, e1]
      omega

/-- If all coefficients are divisible, dividing keeps the meaning. -/
theorem sat_div_iff (d : Ineq) {k : Nat} (hk : 0 < k) (hd : ∀ t ∈ d.terms, (k : Int) ∣ t.2) (b : Asg) :
    (d.div k).sat b ↔ d.sat b := by
  unfold Ineq.sat
  rw [slack_nval d]
  unfold Ineq.div
  rw [slack_nval]
  unfold Ineq.norm
  simp only
  generalize d.deg + negSum d.terms = e
  have hkp : (0 : Int) < k := by omega
  have key : ∀ ts : List (Nat × Int), (∀ t ∈ ts, (k : Int) ∣ t.2) →
      nval b ts = k * nval b (ts.map fun t => (t.1, if t.2 < 0 then t.2 / (k : Int) else -((-t.2) / (k : Int)))) := by
    intro ts
    induction ts with
    | nil => intro _; simp [nval, lin, negSum]
    | cons t ts ih =>
      intro h
      obtain ⟨v, a⟩ := t
      have ih := ih fun t ht => h t (List.mem_cons_of_mem _ ht)
      obtain ⟨q, hq⟩ := h (v, a) (List.mem_cons_self ..)
      simp only at hq
      rw [List.map_cons, nval_cons, nval_cons, Int.mul_add]
      simp only
      rw [ih]
      congr 1
      have e1 : a / (k : Int) = q := by rw [hq]; exact Int.mul_ediv_cancel_left q (by omega)
      have e2 : (-a) / (k : Int) = -q := by rw [hq, ← Int.mul_neg]; exact Int.mul_ediv_cancel_left _ (by omega)
      rw [e1, e2, Int.neg_neg, ite_self]
      by_cases ha : a < 0
      · have hq0 : q < 0 := by
          rcases Int.lt_or_le q 0 with h | h
          · exact h
          · have := Int.mul_nonneg (Int.le_of_lt hkp) h; omega
        rw [if_pos ha, if_pos hq0, Int.mul_add, ← Int.mul_assoc, ← hq, Int.mul_neg, ← hq]
      · have hq0 : ¬ q < 0 := by
          intro h
          have := Int.mul_neg_of_pos_of_neg hkp h; omega
        rw [if_neg ha, if_neg hq0, Int.mul_add, ← Int.mul_assoc, ← hq, Int.mul_zero]
  rw [key d.terms hd]
  generalize nval b (d.terms.map fun t => (t.1, if t.2 < 0 then t.2 / (k : Int) else -((-t.2) / (k : Int)))) = N
  have h3 : -N ≤ (-e) / (k : Int) ↔ -N * k ≤ -e := Int.le_ediv_iff_mul_le hkp
  rw [Int.neg_mul, Int.mul_comm N] at h3
  omega

theorem Den.step {s : State} {V : Nat → Prop} {o : Ops} {f : Asg → Int} (h : Den s V o f) (ho : o ≠ []) :
    ∃ D : Ineq, Sorted D.terms ∧ (∀ v, D.Has v → V v) ∧ (∀ b, D.slack b = f b) ∧ VeriPb.step s (.pol o) = some (s.push D) := by
  rcases h with ⟨h, _⟩ | ⟨_, D, a1, a2, a3, a4⟩
  · exact absurd h ho
  · exact ⟨D, a1, a2, a3, by simp only [VeriPb.step]; rw [a4]⟩

/-- Dividing a sum all of whose coefficients are divisible. -/
theorem Den.div {s : State} {V : Nat → Prop} {o : Ops} {f : Asg → Int} (h : Den s V o f) (ho : o ≠ []) {k : Nat} (hk : 0 < k)
    (hd : ∀ b v, (k : Int) ∣ f (upd b v true) - f (upd b v false)) :
    ∃ D : Ineq, Sorted D.terms ∧ (∀ v, D.Has v → V v) ∧ (∀ b, D.sat b ↔ 0 ≤ f b) ∧ o.div k ≠ [] ∧
      VeriPb.step s (.pol (o.div k)) = some (s.push D) := by
  rcases h with ⟨h, _⟩ | ⟨_, D, a1, a2, a3, a4⟩
  · exact absurd h ho
  · refine ⟨D.div k, sorted_div a1 k, fun v hv => a2 v (has_div hv), fun b => ?_, ?_, ?_⟩
    · rw [sat_div_iff D hk fun t ht => ?_]
      · unfold Ineq.sat; rw [a3]
      · have e := lin_upd (b := b) a1 (v := t.1) (a := t.2) ht
        have := hd b t.1
        rw [← a3, ← a3] at this
        unfold Ineq.slack at this
        rw [← e]
        have h2 : lin (upd b t.1 true) D.terms - D.deg - (lin (upd b t.1 false) D.terms - D.deg) =
            lin (upd b t.1 true) D.terms - lin (upd b t.1 false) D.terms := by omega
        rwa [h2] at this
    · unfold Ops.div; rw [if_pos ho]; simp
    · unfold Ops.div; rw [if_pos ho]
      simp only [VeriPb.step]
      rw [evalOps_append, a4]
      simp only [Option.bind_some, evalOps, evalOp]
      rw [if_neg (by omega)]

end VeriPb

/-! ### The multiplier of the root -/

namespace TotDb

theorem insertBy_sorted {α : Type} (key : α → Nat) (x : α) : ∀ l : List α, l.Pairwise (fun a b => key a ≤ key b) →
    (insertBy key x l).Pairwise (fun a b => key a ≤ key b) := by
  intro l
  induction l with
  | nil => intro _; simp [insertBy]
  | cons y ys ih =>
    intro h
    obtain ⟨h1, h2⟩ := List.pairwise_cons.1 h
    rw [insertBy]
    by_cases hk : key x ≤ key y
    · rw [if_pos hk]
      refine List.pairwise_cons.2 ⟨fun z hz => ?_, h⟩
      rcases List.mem_cons.1 hz with rfl | hz
      · exact hk
      · exact Nat.le_trans hk (h1 z hz)
    · rw [if_neg hk]
      refine List.pairwise_cons.2 ⟨fun z hz => ?_, ih h2⟩
      have hmem : ∀ l : List α, ∀ z ∈ insertBy key x l, z = x ∨ z ∈ l := by
        intro l
        induction l with
        | nil => intro z hz; exact Or.inl (by simpa [insertBy] using hz)
        | cons w ws ihw =>
          intro z hz
          rw [insertBy] at hz
          by_cases hw : key x ≤ key w
          · rw [if_pos hw] at hz
            exact (List.mem_cons.1 hz).imp id id
          · rw [if_neg hw] at hz
            rcases List.mem_cons.1 hz with rfl | hz
            · exact Or.inr (List.mem_cons_self ..)
            · exact (ihw z hz).imp id (List.mem_cons_of_mem _)
      rcases hmem ys z hz with rfl | hz
      · omega
      · exact h1 z hz

theorem sortBy_sorted {α : Type} (key : α → Nat) : ∀ l : List α, (sortBy key l).Pairwise (fun a b => key a ≤ key b) := by
  intro l
  induction l with
  | nil => exact List.Pairwise.nil
  | cons x xs ih => exact insertBy_sorted key x _ ih

/-- The keys of the segments of a sorted list are distinct. -/
theorem segments_keys {α : Type} (key : α → Nat) (d : α) : ∀ l : List α, l.Pairwise (fun a b => key a ≤ key b) →
    ((segments key l).map fun seg => key (seg.headD d)).Pairwise (· < ·) ∧
      ∀ x xs, l = x :: xs → ∃ ys segs, segments key l = (x :: ys) :: segs := by
  intro l
  induction l with
  | nil => intro _; exact ⟨List.Pairwise.nil, fun _ _ h => by cases h⟩
  | cons x xs ih =>
    intro h
    obtain ⟨h1, h2⟩ := List.pairwise_cons.1 h
    obtain ⟨i1, i2⟩ := ih h2
    rw [segments]
    cases xs with
    | nil => exact ⟨by simp [segments], fun _ _ e => by injection e with e1 e2; subst e1; exact ⟨[], [], rfl⟩⟩
    | cons y ys =>
      obtain ⟨zs, segs, e⟩ := i2 y ys rfl
      rw [e] at i1 ⊢
      simp only
      by_cases hk : key x = key y
      · rw [if_pos hk]
        refine ⟨?_, fun _ _ e => by injection e with e1 e2; subst e1; exact ⟨_, _, rfl⟩⟩
        simp only [List.map_cons, List.headD_cons] at i1 ⊢
        rw [hk]; exact i1
      · rw [if_neg hk]
        refine ⟨?_, fun _ _ e => by injection e with e1 e2; subst e1; exact ⟨_, _, rfl⟩⟩
        simp only [List.map_cons, List.headD_cons] at i1 ⊢
        have hxy := h1 y (List.mem_cons_self ..)
        refine List.pairwise_cons.2 ⟨fun z hz => ?_, i1⟩
        rcases List.mem_cons.1 hz with rfl | hz
        · omega
        · have := (List.pairwise_cons.1 i1).1 z hz
          omega

theorem segTrees_mult : ∀ (segs : List (List (Lit × Nat))) (db : Db) (cons : List NodeCon) (db' : Db),
    segTrees db segs = some (cons, db') →
    cons.map (·.multiplier) = segs.map fun seg => (seg.headD (Lit.pos 0, 0)).2 := by
  intro segs
  induction segs with
  | nil =>
    intro db cons db' e
    injection e with e
    injection e with e1 e2
    rw [← e1]; rfl
  | cons seg segs ih =>
    intro db cons db' e
    rw [segTrees] at e
    simp only at e
    generalize litTree db (seg.map (·.1)) = r at e
    obtain ⟨id, db1⟩ := r
    cases id with
    | none => cases e
    | some id =>
      simp only at e
      by_cases hw : (seg.headD (Lit.pos 0, 0)).2 = 0
      · rw [if_pos hw] at e; cases e
      · rw [if_neg hw] at e
        cases hs : segTrees db1 segs with
        | none => rw [hs] at e; cases e
        | some r =>
          obtain ⟨cons2, db2⟩ := r
          rw [hs] at e
          injection e with e
          injection e with e1 e2
          rw [← e1, List.map_cons, List.map_cons, ih db1 cons2 db2 hs]
          rfl

theorem mergeBalancedRec_mult : ∀ (fuel : Nat) (db : Db) (cons : List NodeCon) (cum : List Nat) (offset : Nat),
    (cons.map (·.multiplier)).Nodup →
    (mergeBalancedRec fuel db cons cum offset).1.multiplier = 1 ∨
      ∃ c, cons = [c] ∧ (mergeBalancedRec fuel db cons cum offset).1 = c := by
  intro fuel
  induction fuel with
  | zero => intro db cons cum offset _; exact Or.inl rfl
  | succ fuel ih =>
    intro db cons cum offset hnd
    rw [mergeBalancedRec.eq_def]
    match cons with
    | [] => exact Or.inl rfl
    | [c] => exact Or.inr ⟨c, rfl, rfl⟩
    | c1 :: c2 :: cs =>
      simp only
      generalize hcons : c1 :: c2 :: cs = cons at hnd ⊢
      generalize 1 + ((cum.drop 1).takeWhile fun v =>
        decide (v < (cum.getD (cum.length - 1) 0 - offset) / 2 + offset)).length = split
      have hsplit : (cons.map (·.multiplier)) = (cons.take split).map (·.multiplier) ++ (cons.drop split).map (·.multiplier) := by
        rw [← List.map_append, List.take_append_drop]
      rw [hsplit, List.nodup_append] at hnd
      obtain ⟨n1, n2, n3⟩ := hnd
      have hL := ih db (cons.take split) (cum.take split) offset n1
      generalize mergeBalancedRec fuel db (cons.take split) (cum.take split) offset = resL at hL ⊢
      obtain ⟨lcon, db1⟩ := resL
      have hR := ih db1 (cons.drop split) (cum.drop split) (cum.getD (split - 1) 0) n2
      simp only
      generalize mergeBalancedRec fuel db1 (cons.drop split) (cum.drop split) (cum.getD (split - 1) 0) = resR at hR ⊢
      obtain ⟨rcon, db2⟩ := resR
      simp only at hL hR ⊢
      left
      unfold mergeCons
      by_cases hc : lcon.multiplier > 1 ∧ lcon.multiplier = rcon.multiplier
      · exfalso
        rcases hL with hL | ⟨cl, hl1, hl2⟩
        · omega
        rcases hR with hR | ⟨cr, hr1, hr2⟩
        · omega
        refine n3 lcon.multiplier ?_ rcon.multiplier ?_ hc.2
        · rw [hl1, hl2]; simp
        · rw [hr1, hr2]; simp
      · rw [if_neg hc]
        rfl

end TotDb

/-- If not all weights are the same, or all are one, the root of a new tree has the multiplier one. -/
theorem Gte.extendTree_mult {t t' : Gte} {mw : Option Nat} (hr : t.root = none) (he : t.extendTree mw = some t') {con : NodeCon}
    (hcon : t'.root = some con)
    (h : (∀ x ∈ t.litBuffer, fits mw x = true → x.2 = 1) ∨
      ∃ x ∈ t.litBuffer, ∃ y ∈ t.litBuffer, fits mw x = true ∧ fits mw y = true ∧ x.2 ≠ y.2) : con.multiplier = 1 := by
  unfold Gte.extendTree at he
  simp only at he
  by_cases h0 : t.litBuffer.filter (fits mw) = []
  · rw [h0] at he
    simp only [List.isEmpty_nil, if_true] at he
    injection he with he
    subst he
    rw [hr] at hcon; cases hcon
  · have hie : (t.litBuffer.filter (fits mw)).isEmpty = false := by simpa using h0
    rw [hie] at he
    simp only [Bool.false_eq_true, if_false] at he
    cases hs : segTrees t.db (segments (·.2) (sortBy (·.2) (t.litBuffer.filter (fits mw)))) with
    | none => rw [hs] at he; cases he
    | some r =>
      obtain ⟨cons, db1⟩ := r
      rw [hs, hr] at he
      simp only [Option.toList_none, List.append_nil] at he
      have hmul := segTrees_mult _ _ _ _ hs
      obtain ⟨hk, -⟩ := segments_keys (fun x : Lit × Nat => x.2) (Lit.pos 0, 0) _ (sortBy_sorted (·.2) (t.litBuffer.filter (fits mw)))
      obtain ⟨hf, hsg⟩ := segments_spec (fun x : Lit × Nat => x.2) (sortBy (·.2) (t.litBuffer.filter (fits mw)))
      have hp := sortBy_perm (·.2) (t.litBuffer.filter (fits mw))
      have hnd : (cons.map (·.multiplier)).Nodup := by
        rw [hmul]
        exact hk.imp fun hlt => Nat.ne_of_lt hlt
      unfold mergeBalanced at he
      cases hce : cons.isEmpty with
      | true => rw [hce] at he; cases he
      | false =>
        rw [hce] at he
        simp only [Bool.false_eq_true, if_false] at he
        have hm := mergeBalancedRec_mult cons.length db1 cons (cumWeight db1 0 cons) 0 hnd
        generalize mergeBalancedRec cons.length db1 cons (cumWeight db1 0 cons) 0 = r at hm he
        obtain ⟨con', db2⟩ := r
        simp only at hm he
        injection he with he
        subst he
        injection hcon with hcon
        subst hcon
        rcases hm with hm | ⟨c, e1, e2⟩
        · exact hm
        · subst e2
          rw [e1] at hmul
          generalize segments (·.2) (sortBy (·.2) (t.litBuffer.filter (fits mw))) = segs at hmul hf hsg
          match segs, hmul, hf, hsg with
          | [seg], hmul, hf, hsg =>
            have hmem : ∀ x, x ∈ seg ↔ x ∈ t.litBuffer ∧ fits mw x = true := fun x => by
              rw [← List.mem_filter, ← hp.mem_iff, ← hf]; simp
            obtain ⟨hne, hsame⟩ := hsg seg (by simp)
            rcases h with h | ⟨x, hx, y, hy, fx, fy, hxy⟩
            · match seg, hne, hmul, hmem with
              | z :: zs, _, hmul, hmem =>
                have hz := (hmem z).1 (List.mem_cons_self ..)
                have := h z hz.1 hz.2
                simp only [List.map_cons, List.map_nil, List.headD_cons] at hmul
                injection hmul with hmul
                rw [hmul]; exact this
            · exact absurd (hsame x ((hmem x).2 ⟨hx, fx⟩) y ((hmem y).2 ⟨hy, fy⟩)) hxy
          | [], hmul, _, _ => simp at hmul
          | _ :: _ :: _, hmul, _, _ => simp at hmul

/-! ### The values above a bound -/

namespace TotDb

theorem mem_valsFrom' {n : Node} {lo v : Nat} (hlo : 1 ≤ lo) : v ∈ n.valsFrom lo ↔ v ∈ n.valsFrom 1 ∧ lo ≤ v := by
  cases n with
  | leaf l =>
    simp only [Node.valsFrom, Nat.le_refl, if_true, List.mem_singleton]
    by_cases h : lo ≤ 1
    · rw [if_pos h]; simp; omega
    · rw [if_neg h]; simp; omega
  | unit lits a b c d => simp only [Node.valsFrom, List.mem_range'_1]; omega
  | general lits =>
    simp only [Node.valsFrom, List.mem_filter, decide_eq_true_eq]
    constructor
    · rintro ⟨h1, h2⟩; exact ⟨⟨h1, by omega⟩, h2⟩
    · rintro ⟨⟨h1, -⟩, h2⟩; exact ⟨h1, h2⟩
  | dummy => simp [Node.valsFrom]

theorem valsRange_sorted {db : Db} (h : db.WF) (id lo hi : Nat) (hlo : 1 ≤ lo) :
    ((db.node id).valsRange lo hi).Pairwise (· < ·) := by
  have hs := valsFrom_sorted h id 1
  cases hx : db.node id with
  | leaf l => simp only [Node.valsRange]; split <;> simp
  | dummy => simp [Node.valsRange]
  | unit lits a b c d => simp only [Node.valsRange]; exact List.pairwise_lt_range'
  | general lits a b c d e =>
    rw [hx] at hs
    simp only [Node.valsRange, Node.valsFrom] at hs ⊢
    have e : (lits.map (·.1)).filter (fun v => decide (lo ≤ v) && decide (v < hi)) =
        ((lits.map (·.1)).filter fun v => decide (1 ≤ v)).filter (fun v => decide (lo ≤ v) && decide (v < hi)) := by
      rw [List.filter_filter]
      refine List.filter_congr fun v _ => ?_
      by_cases h1 : lo ≤ v
      · have : 1 ≤ v := by omega
        simp [h1, this]
      · simp [h1]
    rw [e]
    exact hs.filter _

end TotDb

/-- The list consists of `val` and the values following it. -/
def Gte.Chain (t : Gte) : Nat → List Nat → Prop
  | _, [] => True
  | val, v :: vs => v = val ∧ t.Chain (t.nextHigher v) vs

theorem Gte.chain_of_sorted {t : Gte} (hw : t.db.WF) {con : NodeCon} (hr : t.root = some con) (hp : PlainCon t.db con)
    (hm : con.multiplier = 1) {hi : Nat} : ∀ (vals : List Nat) (a : Nat), vals.Pairwise (· < ·) →
    (∀ v, v ∈ vals ↔ v ∈ (t.db.node con.id).valsFrom 1 ∧ a < v ∧ v ≤ hi) → t.Chain (t.nextHigher a) vals := by
  intro vals
  induction vals with
  | nil => intro _ _ _; trivial
  | cons v vs ih =>
    intro a hs hmem
    obtain ⟨h1, h2⟩ := List.pairwise_cons.1 hs
    obtain ⟨m1, m2, m3⟩ := (hmem v).1 (List.mem_cons_self ..)
    have hru : con.revMapRoundUp (a + 1) = a + 1 := by
      have r := hp.roundUp (a + 1)
      have r1 := r a
      have r2 := r (a + 1)
      rw [hp.map, hm] at r1 r2
      omega
    have hv : v ∈ (t.db.node con.id).valsFrom (a + 1) := (mem_valsFrom' (by omega)).2 ⟨m1, by omega⟩
    have hsv := valsFrom_sorted hw con.id (a + 1)
    have hnext : t.nextHigher a = v := by
      unfold Gte.nextHigher
      rw [hr]
      simp only [hru]
      cases hl : (t.db.node con.id).valsFrom (a + 1) with
      | nil => rw [hl] at hv; cases hv
      | cons x xs =>
        simp only [List.head?_cons]
        rw [hp.map, hm, Nat.mul_one]
        rw [hl] at hv hsv
        have hx : x ∈ (t.db.node con.id).valsFrom (a + 1) := by rw [hl]; exact List.mem_cons_self ..
        obtain ⟨x1, x2⟩ := (mem_valsFrom' (by omega)).1 hx
        rcases List.mem_cons.1 hv with e | hv
        · exact e.symm
        · have hlt := (List.pairwise_cons.1 hsv).1 v hv
          have hxm := (hmem x).2 ⟨x1, by omega, by omega⟩
          rcases List.mem_cons.1 hxm with e | hxm
          · exact e
          · have := h1 x hxm; omega
    refine ⟨hnext.symm, ih v h2 fun w => ?_⟩
    constructor
    · intro hwv
      obtain ⟨q1, q2, q3⟩ := (hmem w).1 (List.mem_cons_of_mem _ hwv)
      exact ⟨q1, h1 w hwv, q3⟩
    · rintro ⟨q1, q2, q3⟩
      rcases List.mem_cons.1 ((hmem w).2 ⟨q1, by omega, q3⟩) with e | q
      · omega
      · exact q

theorem Gte.enforceVals_eq {db : Db} (hw : db.WF) {id : Nat} : ∀ (vals : List Nat),
    (∀ v ∈ vals, v ∈ (db.node id).valsFrom 1 ∧ ∃ l, HasVal db id v l) →
    Gte.enforceVals (db.node id) vals = .ok (vals.map fun v => ((db.litAt id v).getD (Lit.pos 0)).neg) := by
  intro vals
  induction vals with
  | nil => intro _; rfl
  | cons v vs ih =>
    intro h
    obtain ⟨h1, h2⟩ := h v (List.mem_cons_self ..)
    rw [Gte.enforceVals, ih fun w hw => h w (List.mem_cons_of_mem _ hw)]
    rcases Gte.enforceVal_spec hw h1 with ⟨l, e, hl⟩ | ⟨-, hl⟩
    · rw [e, List.map_cons, HasVal.litAt hw hl]
      rfl
    · exact absurd h2 hl

/-! ### Deriving the bound -/

variable {VM : Type} [ManageVars VM]

/-- Writing one line. -/
theorem Logged.line {vm : VM} {p : Proof} {s : State} (h : In vm p s) {l : Line} {D : Ineq} (hs : step s l = some (s.push D))
    (hl : witnessVars [l] = []) (hD : Sorted D.terms) (hv : ∀ v, D.Has v → v < ManageVars.nUsed vm) :
    Logged vm vm p (p.push l).2 s (s.push D) [] := by
  refine ⟨⟨[l], rfl, ?_, by rw [hl]; simp⟩, ⟨fun E hE => ?_, fun E hE v hh => ?_, by show s.next + 1 = p.nextId + 1; rw [h.next]⟩,
    Grow.push s D, (fun x hx => by cases hx), Nat.le_refl _⟩
  · simp only [run, hs]
  · rcases mem_push.1 hE with rfl | hE
    · exact hD
    · exact h.ok E hE
  · rcases mem_push.1 hE with rfl | hE
    · exact hv v hh
    · exact h.vars E hE v hh

namespace CertGte

/-- The parts of the encoder that `CertTot.Mid` is about. -/
def asTot (e : CertGte VM) : CertTot VM := ⟨Totalizer.new [], e.defs, e.vm, e.cls, e.proof⟩

variable {vm : VM} {p : Proof} {s : State}

theorem mid_line {e : CertGte VM} {s1 : State} {new : List (Clause × Nat)} (h : CertTot.Mid vm p s e.asTot s1 new) {l : Line}
    {D : Ineq} (hs : step s1 l = some (s1.push D)) (hl : witnessVars [l] = []) (hD : Sorted D.terms)
    (hv : ∀ v, D.Has v → v < ManageVars.nUsed e.vm) :
    CertTot.Mid vm p s ({ e with proof := (e.proof.push l).2 } : CertGte VM).asTot (s1.push D) new := by
  have one := Logged.line h.log.inn hs hl hD hv
  have tr := h.log.trans one
  rw [List.append_nil] at tr
  refine ⟨tr, h.sep, fun m hm => ?_⟩
  obtain ⟨a1, a2, E, a3⟩ := h.ids m hm
  exact ⟨a1, Nat.lt_of_lt_of_le a2 one.grow.next, E, by rw [one.grow.keep _ a2]; exact a3⟩

theorem mid_clause {e : CertGte VM} {s1 : State} {new : List (Clause × Nat)} (h : CertTot.Mid vm p s e.asTot s1 new) {l : Line}
    {D : Ineq} (hs : step s1 l = some (s1.push D)) (hl : witnessVars [l] = []) (hD : Sorted D.terms)
    (hv : ∀ v, D.Has v → v < ManageVars.nUsed e.vm) {c : Clause} (hc : ∀ b, D.sat b ↔ Clause.sat b c) :
    CertTot.Mid vm p s ({ e with proof := (e.proof.push l).2, cls := e.cls ++ [(c, e.proof.nextId)] } : CertGte VM).asTot
      (s1.push D) (new ++ [(c, e.proof.nextId)]) := by
  have one := Logged.one h.log.inn hs hl hD hv hc
  refine ⟨h.log.trans one, fun x hx => ?_, fun m hm => ?_⟩
  · rcases List.mem_append.1 hx with hx | hx
    · exact h.sep x hx
    · simp only [List.mem_singleton] at hx
      subst hx
      intro hm
      have := (h.ids _ hm).2.1
      rw [h.log.inn.next] at this
      exact absurd this (Nat.lt_irrefl _)
  · obtain ⟨a1, a2, E, a3⟩ := h.ids m hm
    exact ⟨a1, Nat.lt_of_lt_of_le a2 one.grow.next, E, by rw [one.grow.keep _ a2]; exact a3⟩

/-- Ruling out the literals whose weight exceeds the bound. -/
theorem derive_buffer {val ub : Nat} {olit : Lit} {defs : SemDefs} {rest : List Lit} {g : Asg → Nat} :
    ∀ (buf : List (Lit × Nat)) (e : CertGte VM) (s1 : State) (new : List (Clause × Nat)) (id : Nat),
    CertTot.Mid vm p s e.asTot s1 new → e.outputProofDetails val = .ok (olit, defs) →
    (∀ x ∈ buf, e.gte.litBuffer.get x.1 = some x.2 ∧ x.1.var < olit.var ∧ x.1.var < ManageVars.nUsed e.vm ∧ ub < x.2) →
    HasDef s1 id (fun a => ub - g a - wsum a buf) →
    ∃ (e' : CertGte VM) (s2 : State) (id' : Nat) (new2 : List (Clause × Nat)),
      e.deriveUnits (buf.map (·.1.neg) ++ rest) id val = e'.deriveUnits rest id' val ∧
      e'.gte = e.gte ∧ e'.defs = e.defs ∧ e'.vm = e.vm ∧ e'.cls = e.cls ++ new2 ∧
      new2.map (·.1) = unitClauses (buf.map (·.1.neg)) ∧ CertTot.Mid vm p s e'.asTot s2 (new ++ new2) ∧ Grow s1 s2 ∧
      HasDef s2 id' (fun a => ub - g a) := by
  intro buf
  induction buf with
  | nil =>
    intro e s1 new id hm hd hb hid
    refine ⟨e, s1, id, [], rfl, rfl, rfl, rfl, by simp, rfl, by simpa using hm, Grow.refl _, ?_⟩
    simpa [wsum] using hid
  | cons x buf ih =>
    intro e s1 new id hm hd hb hid
    obtain ⟨x, w⟩ := x
    obtain ⟨b1, b2, b3, b4⟩ := hb (x, w) (List.mem_cons_self ..)
    simp only at b1 b2 b3 b4
    obtain ⟨i1, D, i2, i3⟩ := hid
    have hD := hm.log.inn.ok D (State.get_mem i2)
    have hstep := step_rup_clause i2 hD (c := [x.neg]) fun a hs => by
      rw [CertTot.sat_unit, Lit.holds_neg]
      have h0 : 0 ≤ D.slack a := hs
      rw [i3 a] at h0
      simp only [wsum] at h0
      cases hx : x.holds a with
      | false => rfl
      | true => rw [hx] at h0; simp only [if_true] at h0; omega
    have m1 := mid_clause hm hstep rfl (sorted_ofConstr _) (fun v hh => by
      obtain ⟨t, ht, rfl⟩ := has_ofConstr hh
      obtain ⟨l, hl, rfl⟩ := List.mem_map.1 ht
      simp only [List.mem_singleton] at hl
      subst hl
      show x.neg.var < _
      rw [Lit.var_neg]
      exact b3) (fun b => sat_clause b [x.neg])
    generalize hE1 : ({ e with proof := (e.proof.push (.rup (Clause.constr [x.neg]) [id])).2,
                               cls := e.cls ++ [([x.neg], e.proof.nextId)] } : CertGte VM) = e1 at m1
    have hin := m1.log.inn
    have hg1 : Grow s1 (s1.push (ofConstr (Clause.constr [x.neg]))) := Grow.push _ _
    generalize s1.push (ofConstr (Clause.constr [x.neg])) = s1' at m1 hin hg1
    have i2' : s1'.get id = some D := by rw [hg1.keep _ i1]; exact i2
    have hden := ((Den.ax (s := s1') (V := fun v => v < ManageVars.nUsed e1.asTot.vm) (l := x) (f := fun a => lbit a x)
        (by rw [← hE1]; exact b3) (fun _ => rfl)).mul w).add
      (Den.id i2' hD (hin.vars D (State.get_mem i2')) i3)
    have hne : Ops.add (Ops.mul [.ax x] w) [.id id] ≠ [] := by
      unfold Ops.add
      by_cases h0 : Ops.mul [.ax x] w = []
      · rw [if_pos h0]; simp
      · rw [if_neg h0]; simp
    obtain ⟨E, e1', e2', e3', e4'⟩ := hden.step hne
    have m2 := mid_line m1 e4' rfl e1' e2'
    have hg2 : Grow s1' (s1'.push E) := Grow.push _ _
    have hid2 : HasDef (s1'.push E) s1'.next fun a => ub - g a - wsum a buf := by
      refine ⟨Nat.lt_succ_self _, E, get_push _ _, fun a => ?_⟩
      rw [e3' a]
      simp only [wsum, lbit]
      cases x.holds a <;> simp <;> omega
    have hE2 : ({ e1 with proof := (e1.proof.push (.pol (Ops.add (Ops.mul [.ax x] w) [.id id]))).2 } : CertGte VM).gte = e.gte := by
      rw [← hE1]
    obtain ⟨e', s2, id', new2, r1, r2, r3, r4, r5, r6, r7, r8, r9⟩ := ih _ _ _ _ m2
      (by rw [← hE1]; exact hd) (fun y hy => by
        have := hb y (List.mem_cons_of_mem _ hy)
        rw [← hE1]; exact this) hid2
    refine ⟨e', s2, id', ([x.neg], e.proof.nextId) :: new2, ?_, by rw [r2, hE2], by rw [r3, ← hE1], by rw [r4, ← hE1], ?_, ?_, ?_,
      (hg1.trans hg2).trans r8, r9⟩
    · rw [← r1, List.map_cons, List.cons_append]
      rw [deriveUnits]
      rw [hd]
      simp only
      have hlt : x.neg.var < olit.var := by rw [Lit.var_neg]; exact b2
      rw [if_pos hlt, Lit.neg_neg, b1]
      simp only [Proof.operations, if_neg hne]
      have hnx : s1'.next = e.proof.nextId + 1 := by
        have := hin.next
        rw [← hE1] at this
        exact this
      rw [hnx, ← hE1]
      rfl
    · rw [r5, ← hE1]; simp
    · rw [List.map_cons, r6]; rfl
    · rw [List.append_assoc] at r7; exact r7

/-- Deriving the negations of the outputs. -/
theorem derive_outputs {ub id : Nat} {con : NodeCon} : ∀ (vals : List Nat) (e : CertGte VM) (s1 : State)
    (new : List (Clause × Nat)) (val : Nat), CertTot.Mid vm p s e.asTot s1 new → e.gte.root = some con → PlainCon e.gte.db con →
    con.multiplier = 1 → e.gte.Chain val vals →
    (∀ v ∈ vals, ub < v ∧ v ≤ (e.gte.db.node con.id).maxVal ∧ (∃ o, e.gte.db.litAt con.id v = some o) ∧
      ∃ d, e.defs.lookup (con.id, v) = some d ∧ DefOK e.gte.db s1 con.id v d) →
    HasDef s1 id (fun a => ub - value e.gte.db (trueLits a) con.id) →
    ∃ (e' : CertGte VM) (s2 : State) (new2 : List (Clause × Nat)),
      e.deriveUnits (vals.map fun v => ((e.gte.db.litAt con.id v).getD (Lit.pos 0)).neg) id val = some e' ∧
      e'.gte = e.gte ∧ e'.defs = e.defs ∧ e'.vm = e.vm ∧ e'.cls = e.cls ++ new2 ∧
      new2.map (·.1) = unitClauses (vals.map fun v => ((e.gte.db.litAt con.id v).getD (Lit.pos 0)).neg) ∧
      CertTot.Mid vm p s e'.asTot s2 (new ++ new2) := by
  intro vals
  induction vals with
  | nil =>
    intro e s1 new val hm _ _ _ _ _ _
    exact ⟨e, s1, [], rfl, rfl, rfl, rfl, by simp, rfl, by simpa using hm⟩
  | cons v vs ih =>
    intro e s1 new val hm hr hp hmul hch hv hid
    obtain ⟨rfl, hch⟩ := hch
    obtain ⟨v1, v2, ⟨o, v3⟩, d, v4, v5⟩ := hv v (List.mem_cons_self ..)
    obtain ⟨n, d1, d2⟩ := v5.only v2
    have hid0 := hid
    obtain ⟨i1, D1, i2, i3⟩ := hid
    obtain ⟨j1, D2, j2, j3⟩ := d2
    have hin := hm.log.inn
    have hden := (Den.id (V := fun v => v < ManageVars.nUsed e.asTot.vm) i2 (hin.ok D1 (State.get_mem i2))
      (hin.vars D1 (State.get_mem i2)) i3).add (Den.id j2 (hin.ok D2 (State.get_mem j2)) (hin.vars D2 (State.get_mem j2)) j3)
    have hden : Den s1 _ (Ops.add [.id id] [.id n]) (fun a => (ub : Int) - v * lbit a o) := hden.congr fun a => by
      unfold onlyFun
      rw [v3]
      simp only [outBit]
      omega
    obtain ⟨E, e1, e2, e3, e4, e5⟩ := hden.div (by simp [Ops.add]) (k := v) (by omega) fun b w => by
      refine ⟨lbit (upd b w false) o - lbit (upd b w true) o, ?_⟩
      rw [Int.mul_sub]; omega
    have m1 := mid_clause hm e5 rfl e1 e2 (c := [o.neg]) fun a => by
      rw [e3, CertTot.sat_unit, Lit.holds_neg]
      unfold lbit
      cases o.holds a <;> simp <;> omega
    have hg : Grow s1 (s1.push E) := Grow.push _ _
    obtain ⟨e', s2, new2, r1, r2, r3, r4, r5, r6, r7⟩ := ih _ _ _ (e.gte.nextHigher v) m1 hr hp hmul hch (fun w hw => by
      obtain ⟨w1, w2, w3, d', w4, w5⟩ := hv w (List.mem_cons_of_mem _ hw)
      exact ⟨w1, w2, w3, d', w4, w5.grow hg⟩) (hid0.grow hg)
    refine ⟨e', s2, ([o.neg], e.proof.nextId) :: new2, ?_, r2, r3, r4, ?_, ?_, ?_⟩
    · rw [← r1, List.map_cons, v3, deriveUnits]
      have hdet : e.outputProofDetails v = .ok (o, d) := by
        unfold outputProofDetails
        rw [hr]
        have hpos : con.isPossible v = true := (hp.isPossible v).2 (by rw [hmul]; exact Nat.mod_one v)
        have hrev : con.revMap v = v := by rw [hp.revMap, hmul, Nat.div_one]
        simp only [hpos, if_true, hp.offset, hrev, v4, v3]
      rw [hdet]
      simp only [Option.getD_some]
      rw [if_neg (show ¬ o.neg.var < o.var by rw [Lit.var_neg]; exact Nat.lt_irrefl _), d1]
      simp only [Proof.operations, if_neg e4]
      rfl
    · rw [r5]; simp
    · rw [List.map_cons, r6, List.map_cons, v3]; rfl
    · rw [List.append_assoc] at r7; exact r7

end CertGte
end RustSat
