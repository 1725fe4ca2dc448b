import Verif.Lemmas.Totalizer2
import Verif.Lemmas.Weighted
import Verif.Lemmas.Gap
import Verif.Spec.Gte
/-
The invariant of the generalized totalizer over histories.
-/
namespace RustSat
open TotDb Card

theorem wsumT_perm (T : Lit → Bool) {a b : List (Lit × Nat)} (h : a.Perm b) : wsumT T a = wsumT T b :=
  (h.map _).sum_nat

theorem wsumT_filter (T : Lit → Bool) (p : Lit × Nat → Bool) (l : List (Lit × Nat)) :
    wsumT T (l.filter p) + wsumT T (l.filter fun x => !p x) = wsumT T l := by
  induction l with
  | nil => rfl
  | cons x xs ih =>
    simp only [wsumT, List.filter_cons] at ih ⊢
    cases p x
    · simp only [Bool.false_eq_true, if_false, Bool.not_false, if_true, List.map_cons, List.sum_cons]; omega
    · simp only [Bool.not_true, Bool.false_eq_true, if_false, if_true, List.map_cons, List.sum_cons]; omega

theorem wsumT_true (l : List (Lit × Nat)) : wsumT (fun _ => true) l = (l.map (·.2)).sum := by
  simp [wsumT]

theorem wsum_eq_wsumT (a : Asg) (l : List (Lit × Nat)) : wsum a l = wsumT (trueLits a) l := by
  induction l with
  | nil => rfl
  | cons x xs ih =>
    obtain ⟨x, w⟩ := x
    rw [wsum, ih]
    simp only [wsumT, List.map_cons, List.sum_cons]
    rfl

theorem wsumT_zero {T : Lit → Bool} : ∀ {l : List (Lit × Nat)}, (∀ x ∈ l, T x.1 = false) → wsumT T l = 0 := by
  intro l
  induction l with
  | nil => intro _; rfl
  | cons x xs ih =>
    intro h
    have := ih fun y hy => h y (by simp [hy])
    simp only [wsumT, List.map_cons, List.sum_cons, h x (by simp), Bool.false_eq_true, if_false] at this ⊢
    omega

theorem wsumT_le (T : Lit → Bool) (l : List (Lit × Nat)) : wsumT T l ≤ wsumT (fun _ => true) l := by
  induction l with
  | nil => exact Nat.le_refl _
  | cons x xs ih =>
    simp only [wsumT, List.map_cons, List.sum_cons, if_true] at ih ⊢
    split <;> omega

theorem wsumT_mem_le {T : Lit → Bool} {l : List (Lit × Nat)} {x : Lit × Nat} (h : x ∈ l) (hT : T x.1 = true) :
    x.2 ≤ wsumT T l := by
  induction l with
  | nil => cases h
  | cons y ys ih =>
    simp only [wsumT, List.map_cons, List.sum_cons]
    rcases List.mem_cons.1 h with rfl | h
    · rw [if_pos hT]; omega
    · have := ih h
      unfold wsumT at this
      omega

theorem wsum_congr {a b : Asg} {l : List (Lit × Nat)} (h : ∀ x ∈ l, x.1.holds a = x.1.holds b) : wsum a l = wsum b l := by
  induction l with
  | nil => rfl
  | cons x xs ih =>
    obtain ⟨x, w⟩ := x
    rw [wsum, wsum, ih fun y hy => h y (by simp [hy]), h (x, w) (by simp)]

namespace LitMap

theorem insert_notMem : ∀ (m : LitMap) (l : Lit) (w : Nat), l ∉ m.map (·.1) → insert m l w = m ++ [(l, w)] := by
  intro m l w
  induction m with
  | nil => intro _; rfl
  | cons x xs ih =>
    intro h
    rw [List.map_cons, List.mem_cons, not_or] at h
    rw [insert, if_neg fun e => h.1 e.symm, ih h.2]
    rfl

theorem ofList_nodup (lits : List (Lit × Nat)) (h : (lits.map (·.1)).Nodup) : ofList lits = lits := by
  have key : ∀ (lits m : List (Lit × Nat)), ((m ++ lits).map (·.1)).Nodup →
      lits.foldl (fun m x => insert m x.1 x.2) m = m ++ lits := by
    intro lits
    induction lits with
    | nil => intro m _; simp
    | cons x xs ih =>
      intro m hm
      rw [List.foldl_cons, insert_notMem, ih]
      · simp
      · simpa using hm
      · intro hx
        rw [List.map_append, List.nodup_append] at hm
        exact hm.2.2 x.1 hx x.1 (by simp) rfl
  exact key lits [] (by simpa using h)

theorem get_some_insert (T : Lit → Bool) : ∀ (m : LitMap) (l : Lit) (w v : Nat), get m l = some w →
    wsumT T (insert m l (w + v)) = wsumT T m + if T l then v else 0 := by
  intro m l w v
  induction m with
  | nil => intro h; cases h
  | cons x xs ih =>
    intro h
    rw [insert]
    by_cases hx : x.1 = l
    · rw [if_pos hx]
      have hw : x.2 = w := by
        simp only [get, List.find?_cons, hx, beq_self_eq_true, Option.map_some, Option.some.injEq] at h
        exact h
      simp only [wsumT, List.map_cons, List.sum_cons, hx, hw]
      split <;> omega
    · rw [if_neg hx]
      have hg : get xs l = some w := by
        have hb : (x.1 == l) = false := by simpa using hx
        simp only [get, List.find?_cons, hb] at h
        exact h
      have := ih hg
      simp only [wsumT, List.map_cons, List.sum_cons] at this ⊢
      omega

theorem get_none_notMem {m : LitMap} {l : Lit} (h : get m l = none) : l ∉ m.map (·.1) := by
  intro hm
  obtain ⟨x, hx, rfl⟩ := List.mem_map.1 hm
  unfold get at h
  rw [Option.map_eq_none_iff] at h
  have := List.find?_eq_none.1 h x hx
  simp at this

theorem addLit_sum (T : Lit → Bool) (m : LitMap) (x : Lit × Nat) :
    wsumT T (addLit m x) = wsumT T m + if T x.1 then x.2 else 0 := by
  unfold addLit
  cases h : get m x.1 with
  | some w => exact get_some_insert T m x.1 w x.2 h
  | none =>
    simp only
    rw [insert_notMem m x.1 x.2 (get_none_notMem h), wsumT_append]
    simp [wsumT]

theorem insert_mem : ∀ (m : LitMap) (l : Lit) (w : Nat), ∀ y ∈ insert m l w, y ∈ m ∨ y = (l, w) := by
  intro m l w
  induction m with
  | nil => intro y hy; right; simpa [insert] using hy
  | cons x xs ih =>
    intro y hy
    rw [insert] at hy
    by_cases hx : x.1 = l
    · rw [if_pos hx] at hy
      rcases List.mem_cons.1 hy with h | h
      · exact Or.inr h
      · exact Or.inl (by simp [h])
    · rw [if_neg hx] at hy
      rcases List.mem_cons.1 hy with h | h
      · exact Or.inl (by simp [h])
      · exact (ih y h).imp (fun h => by simp [h]) fun h => h

theorem addLit_mem {m : LitMap} {x y : Lit × Nat} (h : y ∈ addLit m x) : y ∈ m ∨ (y.1 = x.1 ∧ x.2 ≤ y.2) := by
  unfold addLit at h
  cases hg : get m x.1 with
  | some w =>
    rw [hg] at h
    rcases insert_mem _ _ _ y h with h | rfl
    · exact Or.inl h
    · exact Or.inr ⟨rfl, by simp⟩
  | none =>
    rw [hg] at h
    rcases insert_mem _ _ _ y h with h | rfl
    · exact Or.inl h
    · exact Or.inr ⟨rfl, by simp⟩

theorem addLits_sum (T : Lit → Bool) : ∀ (lits : List (Lit × Nat)) (m : LitMap),
    wsumT T (lits.foldl addLit m) = wsumT T m + wsumT T lits := by
  intro lits
  induction lits with
  | nil => intro m; simp [wsumT]
  | cons x xs ih =>
    intro m
    rw [List.foldl_cons, ih, addLit_sum]
    simp only [wsumT, List.map_cons, List.sum_cons]
    omega

theorem addLits_mem : ∀ (lits : List (Lit × Nat)) (m : LitMap), ∀ y ∈ lits.foldl addLit m,
    y ∈ m ∨ ∃ x ∈ lits, y.1 = x.1 ∧ x.2 ≤ y.2 := by
  intro lits
  induction lits with
  | nil => intro m y hy; exact Or.inl hy
  | cons x xs ih =>
    intro m y hy
    rw [List.foldl_cons] at hy
    rcases ih _ y hy with h | ⟨z, hz, h⟩
    · rcases addLit_mem h with h | h
      · exact Or.inl h
      · exact Or.inr ⟨x, by simp, h⟩
    · exact Or.inr ⟨z, by simp [hz], h⟩

theorem maxWeight_ge : ∀ (m : LitMap) (init : Nat), init ≤ maxWeight m init ∧ ∀ x ∈ m, x.2 ≤ maxWeight m init := by
  intro m
  induction m with
  | nil => intro init; exact ⟨Nat.le_refl _, by simp⟩
  | cons x xs ih =>
    intro init
    unfold maxWeight at ih ⊢
    rw [List.foldl_cons]
    by_cases h : x.2 > init
    · rw [if_pos h]
      obtain ⟨h1, h2⟩ := ih x.2
      exact ⟨by omega, fun y hy => (List.mem_cons.1 hy).elim (fun e => by rw [e]; exact h1) (h2 y)⟩
    · rw [if_neg h]
      obtain ⟨h1, h2⟩ := ih init
      exact ⟨h1, fun y hy => (List.mem_cons.1 hy).elim (fun e => by rw [e]; omega) (h2 y)⟩

end LitMap

/-! ### Enforcing one value of the root -/

namespace TotDb

theorem HasVal.lt {db : Db} {id v : Nat} {l : Lit} (h : HasVal db id v l) : id < db.nodes.length := by
  apply Db.node_lt
  intro hn
  rcases h with ⟨h1, -⟩ | ⟨k, s, h1, -⟩ <;> rw [hn] at h1 <;> cases h1

end TotDb

namespace Gte
variable {VM : Type} [ManageVars VM]

theorem enforceVal_spec {db : Db} (hw : db.WF) {id v : Nat} (hv : v ∈ (db.node id).valsFrom 1) :
    (∃ l, enforceVal (db.node id) v = .ok l.neg ∧ HasVal db id v l) ∨
    (enforceVal (db.node id) v = .err .notEncoded ∧ ¬ ∃ l, HasVal db id v l) := by
  have hno : ∀ {d : LitData}, (∀ k d', (db.node id).outData k = some (v, d') → d' = d) → db.node id ≠ .leaf (Lit.pos 0) →
      (∀ l, db.node id ≠ .leaf l) → d.hasIf = false → ¬ ∃ l, HasVal db id v l := by
    rintro d hd - hl hif ⟨l, hx⟩
    rcases hx with ⟨h1, -⟩ | ⟨k, s, h1, h2⟩
    · exact hl l h1
    · have := hd k _ h1
      rw [← this] at hif
      simp only [LitData.hasIf] at hif
      rw [hif] at h2
      cases h2
  cases hn : db.node id with
  | dummy => rw [hn] at hv; cases hv
  | leaf l =>
    rw [hn] at hv
    have : v = 1 := by simpa [Node.valsFrom] using hv
    exact Or.inl ⟨l, rfl, Or.inl ⟨hn, this⟩⟩
  | unit lits d nl l r =>
    rw [hn] at hv
    simp only [Node.valsFrom, List.mem_range'_1] at hv
    have hlt : v - 1 < lits.length := by omega
    have hget : lits[v - 1]? = some lits[v - 1] := List.getElem?_eq_getElem hlt
    simp only [enforceVal]
    rw [hget]
    generalize lits[v - 1] = d0 at hget
    have hdat : ∀ k d', (db.node id).outData k = some (v, d') → d' = d0 := by
      intro k d' hk
      rw [hn] at hk
      simp only [Node.outData, Option.map_eq_some_iff] at hk
      obtain ⟨y, hy, e⟩ := hk
      cases e
      rw [Nat.add_sub_cancel, hy] at hget
      exact Option.some.inj hget
    have hout : (db.node id).outData (v - 1) = some (v, d0) := by
      rw [hn]
      simp only [Node.outData, hget, Option.map_some]
      rw [show v - 1 + 1 = v by omega]
    have hno' := hno hdat (by rw [hn]; intro h; cases h) (by rw [hn]; intro l h; cases h)
    match d0, hout, hno' with
    | .none, _, hno' => exact Or.inr ⟨rfl, hno' rfl⟩
    | .lit l none, _, hno' => exact Or.inr ⟨rfl, hno' rfl⟩
    | .lit l (some s), hout, hno' =>
      simp only
      by_cases hs : s.hasIf = true
      · rw [if_pos hs]; exact Or.inl ⟨l, rfl, Or.inr ⟨v - 1, s, hout, hs⟩⟩
      · rw [if_neg hs]; exact Or.inr ⟨rfl, hno' (by simpa [LitData.hasIf] using hs)⟩
  | general lits d nl m l r =>
    have hg := (general_vals hw hn v).1 hv
    have hok := hw.nodes id _ (Db.getElem?_node (Db.node_lt (by rw [hn]; intro h; cases h)))
    rw [hn] at hok
    obtain ⟨-, -, -, -, h5, -⟩ := hok
    simp only [enforceVal]
    cases hidx : valIdx lits v with
    | none => exact absurd hg (valIdx_none hidx)
    | some k =>
      obtain ⟨d0, hget⟩ := valIdx_some hidx
      simp only [hget]
      have hdat : ∀ k' d', (db.node id).outData k' = some (v, d') → d' = d0 := by
        intro k' d' hk
        rw [hn] at hk
        simp only [Node.outData] at hk
        obtain ⟨hk1, e1⟩ := List.getElem?_eq_some_iff.1 hk
        obtain ⟨hk2, e2⟩ := List.getElem?_eq_some_iff.1 hget
        have hpw := List.pairwise_iff_getElem.1 h5
        have : k' = k := by
          rcases Nat.lt_trichotomy k' k with h | h | h
          · have := hpw k' k (by simpa using hk1) (by simpa using hk2) h
            simp only [List.getElem_map, e1, e2] at this
            omega
          · exact h
          · have := hpw k k' (by simpa using hk2) (by simpa using hk1) h
            simp only [List.getElem_map, e1, e2] at this
            omega
        subst this
        rw [hk] at hget
        cases hget
        rfl
      have hout : (db.node id).outData k = some (v, d0) := by rw [hn]; exact hget
      have hno' := hno hdat (by rw [hn]; intro h; cases h) (by rw [hn]; intro l h; cases h)
      match d0, hout, hno' with
      | .none, _, hno' => exact Or.inr ⟨rfl, hno' rfl⟩
      | .lit l none, _, hno' => exact Or.inr ⟨rfl, hno' rfl⟩
      | .lit l (some s), hout, hno' =>
        simp only
        by_cases hs : s.hasIf = true
        · rw [if_pos hs]; exact Or.inl ⟨l, rfl, Or.inr ⟨k, s, hout, hs⟩⟩
        · rw [if_neg hs]; exact Or.inr ⟨rfl, hno' (by simpa [LitData.hasIf] using hs)⟩

theorem enforceVals_spec {db : Db} (hw : db.WF) {id : Nat} : ∀ (vals : List Nat),
    (∀ v ∈ vals, v ∈ (db.node id).valsFrom 1) →
    (∃ A, enforceVals (db.node id) vals = .ok A ∧ (∀ v ∈ vals, ∃ l, HasVal db id v l ∧ l.neg ∈ A) ∧
      ∀ a ∈ A, ∃ v ∈ vals, ∃ l, HasVal db id v l ∧ a = l.neg) ∨
    (enforceVals (db.node id) vals = .err .notEncoded ∧ ∃ v ∈ vals, ¬ ∃ l, HasVal db id v l) := by
  intro vals
  induction vals with
  | nil => intro _; exact Or.inl ⟨[], rfl, by simp, by simp⟩
  | cons v vs ih =>
    intro h
    rw [enforceVals]
    rcases enforceVal_spec hw (h v (by simp)) with ⟨l, e, hl⟩ | ⟨e, hl⟩
    · rw [e]
      simp only
      rcases ih fun w hw' => h w (by simp [hw']) with ⟨A, e2, h1, h2⟩ | ⟨e2, w, hw', h1⟩
      · rw [e2]
        refine Or.inl ⟨_, rfl, fun w hw' => ?_, fun a ha => ?_⟩
        · rcases List.mem_cons.1 hw' with rfl | hw'
          · exact ⟨l, hl, by simp⟩
          · obtain ⟨l', h3, h4⟩ := h1 w hw'
            exact ⟨l', h3, by simp [h4]⟩
        · rcases List.mem_cons.1 ha with rfl | ha
          · exact ⟨v, by simp, l, hl, rfl⟩
          · obtain ⟨w, h3, h4⟩ := h2 a ha
            exact ⟨w, by simp [h3], h4⟩
      · rw [e2]; exact Or.inr ⟨rfl, w, by simp [hw'], h1⟩
    · rw [e]; exact Or.inr ⟨rfl, v, by simp, hl⟩

/-! ### The invariant -/

/-- The value transmitted by the root. -/
def rootVal (t : Gte) (T : Lit → Bool) : Nat :=
  match t.root with
  | some con => conVal t.db T con
  | none => 0

/-- The invariant of an encoder. -/
structure Inv (t : Gte) (n : Nat) (cls : ClauseSet) (ins : List (Lit × Nat)) (own : List Nat) : Prop where
  core : Core t.db n cls (ins.map (·.1)) own
  root : ∀ con, t.root = some con → GapCon t.maxLeafWeight t.db con
  val : ∀ T, t.rootVal T + wsumT T t.litBuffer = wsumT T ins
  buf : ∀ x ∈ t.litBuffer, 0 < x.2 ∧ x.1 ∈ ins.map (·.1)

/-- The upper bound `ub` is encoded. -/
def EncUb (t : Gte) (ub : Nat) : Prop :=
  (∀ x ∈ t.litBuffer, ub < x.2) ∧ ∀ con, t.root = some con → ∀ v ∈ (t.db.node con.id).valsFrom 1, ub < con.map v →
    con.map v ≤ ub + t.maxLeafWeight → ∃ l, HasVal t.db con.id v l

/-- The values of the root that a call considers. -/
theorem mem_rootVals {db : Db} {con : NodeCon} (hc : PlainCon db con) {lo hi v : Nat} :
    v ∈ (db.node con.id).valsRange (con.revMapRoundUp (lo + 1)) (con.revMap hi + 1) ↔
      v ∈ (db.node con.id).valsFrom 1 ∧ lo < con.map v ∧ con.map v ≤ hi := by
  have hru := hc.roundUp (lo + 1)
  have h1 : 1 ≤ con.revMapRoundUp (lo + 1) := by
    have := (hru 0).2 (by rw [NodeCon.map_zero]; omega)
    omega
  rw [mem_valsRange h1]
  have h2 : con.revMapRoundUp (lo + 1) ≤ v ↔ lo < con.map v := by
    have := hru v
    constructor
    · intro h
      rcases Nat.lt_or_ge lo (con.map v) with h' | h'
      · exact h'
      · exact absurd (this.2 (by omega)) (by omega)
    · intro h
      rcases Nat.lt_or_ge v (con.revMapRoundUp (lo + 1)) with h' | h'
      · have := this.1 h'; omega
      · exact h'
  have h3 : v < con.revMap hi + 1 ↔ con.map v ≤ hi := by
    rw [Nat.lt_succ_iff, hc.revMap, hc.map, Nat.le_div_iff_mul_le hc.mult]
  rw [h2, h3]

namespace Inv
variable {t : Gte} {n : Nat} {cls : ClauseSet} {ins : List (Lit × Nat)} {own : List Nat}

theorem weightSum (h : t.Inv n cls ins own) : t.weightSum = wsumT (fun _ => true) ins := by
  have hv := h.val (fun _ => true)
  unfold Gte.weightSum LitMap.total
  unfold rootVal at hv
  rw [← wsumT_true]
  cases hr : t.root with
  | none => rw [hr] at hv; simp only at hv ⊢; omega
  | some con =>
    rw [hr] at hv
    simp only at hv ⊢
    unfold conVal at hv
    rw [value_all_max h.core.wf] at hv
    omega

theorem replace_db (h : t.Inv n cls ins own) {R : LitData → LitData → Prop} {db' : Db} (hr : DbRel R t.db db') {n' : Nat}
    {cls' : ClauseSet} {own' : List Nat} (hc : Core db' n' cls' (ins.map (·.1)) own') (k1 k2 : Nat) :
    Inv { t with db := db', nClauses := k1, nVars := k2 } n' cls' ins own' := by
  refine ⟨hc, fun con hcon => ?_, fun T => ?_, h.buf⟩
  · obtain ⟨h1, h2⟩ := h.root con hcon
    refine ⟨hr.plain h1, fun T b hb => ?_⟩
    rw [hr.conVal h.core.wf] at hb
    obtain ⟨v, ⟨u, h3, h4⟩, h5⟩ := h2 T b hb
    exact ⟨v, ⟨u, (hr.att h.core.wf).2 h3, h4⟩, h5⟩
  · have := h.val T
    unfold rootVal at this ⊢
    cases he : t.root with
    | none => rw [he] at this; exact this
    | some con => rw [he] at this; simp only at this ⊢; rw [hr.conVal h.core.wf]; exact this

theorem reset (h : t.Inv n cls ins own) (sem : Semantics) :
    Inv { t with db := t.db.resetEncoded sem } n cls ins own :=
  h.replace_db (resetEncoded_rel t.db sem) (h.core.reset sem) t.nClauses t.nVars

theorem extendTree (h : t.Inv n cls ins own) (mw : Option Nat) :
    ∃ t', t.extendTree mw = some t' ∧ t'.Inv n cls ins own ∧ t'.litBuffer = t.litBuffer.filter (fun x => !fits mw x) ∧
      t'.nVars = t.nVars ∧ t'.nClauses = t.nClauses ∧ Ext (ins.map (·.1)) t.db t'.db ∧
      (t.litBuffer.filter (fits mw) = [] → t' = t) := by
  unfold Gte.extendTree
  simp only
  by_cases he : t.litBuffer.filter (fits mw) = []
  · rw [he]
    simp only [List.isEmpty_nil, if_true]
    refine ⟨t, rfl, h, ?_, rfl, rfl, Ext.refl _ _, fun _ => rfl⟩
    symm
    rw [List.filter_eq_self]
    intro x hx
    have := List.filter_eq_nil_iff.1 he x hx
    simpa using this
  · have hie : (t.litBuffer.filter (fits mw)).isEmpty = false := by simpa using he
    rw [hie]
    simp only [Bool.false_eq_true, if_false]
    have hp := sortBy_perm (·.2) (t.litBuffer.filter (fits mw))
    obtain ⟨hf, hs⟩ := segments_spec (fun x : Lit × Nat => x.2) (sortBy (·.2) (t.litBuffer.filter (fits mw)))
    have hmem : ∀ x ∈ sortBy (·.2) (t.litBuffer.filter (fits mw)), x ∈ t.litBuffer ∧ fits mw x = true := fun x hx => by
      have := hp.mem_iff.1 hx
      rwa [List.mem_filter] at this
    obtain ⟨cons, db1, e1, a1, a2, a3, a4, a5⟩ := segTrees_spec (segments (·.2) (sortBy (·.2) (t.litBuffer.filter (fits mw))))
      t.db h.core.wf hs (by rw [hf]; exact fun x hx => (h.buf x (hmem x hx).1).1)
    rw [hf] at a2 a4 a5
    rw [e1]
    simp only
    obtain ⟨hM1, hM2⟩ := LitMap.maxWeight_ge (t.litBuffer.filter (fits mw)) t.maxLeafWeight
    generalize hM : LitMap.maxWeight (t.litBuffer.filter (fits mw)) t.maxLeafWeight = M at hM1 hM2 ⊢
    have hsub : ∀ l ∈ (sortBy (·.2) (t.litBuffer.filter (fits mw))).map (·.1), l ∈ ins.map (·.1) := fun l hl => by
      obtain ⟨x, hx, rfl⟩ := List.mem_map.1 hl
      exact (h.buf x (hmem x hx).1).2
    have hcons : ∀ c ∈ cons ++ t.root.toList, GapCon M db1 c := by
      intro c hc
      rcases List.mem_append.1 hc with hc | hc
      · obtain ⟨p1, p2, x, hx, p3⟩ := a4 c hc
        refine ⟨p1, (gap_unit a1 p1 p2).mono ?_⟩
        rw [p3]
        exact hM2 x (hp.mem_iff.1 hx)
      · rw [Option.mem_toList] at hc
        obtain ⟨p1, p2⟩ := h.root c hc
        exact ⟨a2.plain p1, (p2.ext h.core.wf a1 a2 p1.id).mono hM1⟩
    have hne : cons ++ t.root.toList ≠ [] := by
      intro h0
      have h1 : cons = [] := (List.append_eq_nil_iff.1 h0).1
      rw [h1] at a3
      have h2 := List.length_eq_zero_iff.1 a3.symm
      rw [h2] at hf
      rw [← hf] at hp
      exact he hp.symm.eq_nil
    obtain ⟨c, db2, e2, b1, b2, b3, b4⟩ := mergeBalanced_spec (mergeable_gap M) a1 hne hcons
    rw [e2]
    simp only
    have hx : Ext (ins.map (·.1)) t.db db2 := (a2.mono hsub).trans (b2.mono (by simp))
    refine ⟨_, rfl, ⟨h.core.ext hx b1 fun l hl => hl, fun con hcon => ?_, fun T => ?_, fun x hx' => ?_⟩, rfl, rfl, rfl, hx,
      fun h0 => absurd h0 he⟩
    · cases hcon; exact b3
    · have hv := h.val T
      have hfil := wsumT_filter T (fits mw) t.litBuffer
      have hsum : conVal db2 T c = wsumT T (t.litBuffer.filter (fits mw)) + t.rootVal T := by
        rw [b4, List.map_append, List.sum_append, a5, wsumT_perm T hp]
        congr 1
        unfold rootVal
        cases hr : t.root with
        | none => rfl
        | some con =>
          simp only [Option.toList_some, List.map_cons, List.map_nil, List.sum_cons, List.sum_nil, Nat.add_zero]
          exact a2.conVal h.core.wf T (h.root con hr).1.id
      show conVal db2 T c + wsumT T (t.litBuffer.filter fun x => !fits mw x) = _
      omega
    · exact h.buf x (List.mem_filter.1 hx').1

/-- What an encoding call guarantees. -/
structure _root_.RustSat.Gte.EncCall (t : Gte) (vm : VM) (cls : ClauseSet) (ins : List (Lit × Nat)) (own : List Nat)
    (t' : Gte) (vm' : VM) (new : ClauseSet) : Prop where
  inv : t'.Inv (ManageVars.nUsed vm') (cls ++ new) ins (own ++ CardWorld.handedOut vm vm')
  nVars : t'.nVars = t.nVars + (CardWorld.handedOut vm vm').length
  nClauses : t'.nClauses = t.nClauses + new.length
  used : ManageVars.nUsed vm ≤ ManageVars.nUsed vm'

theorem prepareUb_iff {ws : Nat} {r : URange} {b : Nat} :
    (Pb.prepareUbRange ws r).1 ≤ b ∧ b < (Pb.prepareUbRange ws r).2 ↔ r.contains b ∧ b < ws := by
  unfold Pb.prepareUbRange URange.contains
  cases r.lo <;> cases r.hi <;> simp only [true_and, and_true] <;> omega

theorem encodeUbChange [LawfulVM VM] {vm : VM} (h : t.Inv (ManageVars.nUsed vm) cls ins own) (col : ClauseSet) (r : URange) :
    ∃ t' vm' new, t.encodeUbChange r vm col = some (t', vm', col ++ new) ∧ EncCall t vm cls ins own t' vm' new ∧
      (∀ b, r.contains b → b < wsumT (fun _ => true) ins → t'.EncUb b) ∧
      ((∀ x ∈ t.litBuffer, ∀ b, r.contains b → b < x.2) → ∀ b, t.EncUb b → t'.EncUb b) ∧
      (∀ C, SoundIf t.db C → SoundIf t'.db (C ++ new)) := by
  unfold Gte.encodeUbChange
  simp only
  rw [h.weightSum]
  have hmem := fun b => prepareUb_iff (ws := wsumT (fun _ => true) ins) (r := r) (b := b)
  generalize Pb.prepareUbRange (wsumT (fun _ => true) ins) r = range at hmem ⊢
  obtain ⟨lo, hi⟩ := range
  simp only at hmem ⊢
  by_cases he : hi ≤ lo
  · rw [if_pos he]
    refine ⟨t, vm, [], by simp, ⟨?_, ?_, by simp, Nat.le_refl _⟩, fun b hb hl => ?_, fun _ _ h => h, by simp⟩
    · simpa [CardWorld.handedOut] using h
    · simp [CardWorld.handedOut]
    · have := (hmem b).2 ⟨hb, hl⟩; omega
  · rw [if_neg he]
    obtain ⟨t1, e1, inv1, b1, k1, k2, x1, s1⟩ := h.extendTree (some (hi - 1))
    rw [e1]
    simp only
    have hbuf : ∀ x ∈ t1.litBuffer, hi ≤ x.2 := fun x hx => by
      rw [b1, List.mem_filter] at hx
      have := hx.2
      simp only [fits, Bool.not_eq_true', decide_eq_false_iff_not] at this
      omega
    have hsame : (∀ x ∈ t.litBuffer, ∀ b, r.contains b → b < x.2) → t1 = t := fun hx => s1 (by
      rw [List.filter_eq_nil_iff]
      intro x hm
      have := hx x hm (hi - 1) ((hmem (hi - 1)).1 (by omega)).1
      simp only [fits, decide_eq_true_eq]
      omega)
    have hfwd : ∀ C, SoundIf t.db C → SoundIf t1.db C := fun C hC => by
      intro i k v l s hs hif b hb T hT hv
      have ho := x1.outAt.1 ⟨s, hs⟩
      have hlt := outAt_lt ho
      rw [x1.value h.core.wf T hlt, x1.node hlt, x1.att h.core.wf inv1.core.wf hlt] at hv
      rw [x1.node hlt] at hs
      exact hC i k v l s hs hif b hb T hT hv
    cases hr : t1.root with
    | none =>
      simp only
      refine ⟨t1, vm, [], by simp, ⟨?_, ?_, by simp [k2], Nat.le_refl _⟩, fun b hb hl => ⟨fun x hx => ?_, fun con hcon => ?_⟩,
        fun hx b hb => by rw [hsame hx]; exact hb, fun C hC => by simpa using hfwd C hC⟩
      · simpa [CardWorld.handedOut] using inv1
      · simp [CardWorld.handedOut, k1]
      · have := (hmem b).2 ⟨hb, hl⟩
        have := hbuf x hx
        omega
      · rw [hr] at hcon; cases hcon
    | some con =>
      simp only
      obtain ⟨hpc, hgap⟩ := inv1.root con hr
      have hvals := fun v => mem_rootVals hpc (lo := lo) (hi := hi + t1.maxLeafWeight) (v := v)
      generalize (t1.db.node con.id).valsRange (con.revMapRoundUp (lo + 1)) (con.revMap (hi + t1.maxLeafWeight) + 1) = vals
        at hvals ⊢
      obtain ⟨st, e2, s2, l2, -, -⟩ := defineVals_spec con.id vals (⟨t1.db, vm, col⟩ : St VM) inv1.core.wf
        fun v hv => ((hvals v).1 hv).1
      rw [e2]
      simp only
      obtain ⟨new, en, s3⟩ := s2.recol cls
      obtain ⟨new', en', c1, c2, c3, c4⟩ := s3.cls
      have : new = new' := List.append_cancel_left en'
      subst this
      simp only at c1 c2
      have hcore := Core.step (st := (⟨t1.db, vm, cls⟩ : St VM)) inv1.core s3
      refine ⟨{ t1 with db := st.db, nClauses := t1.nClauses + (st.cls.length - col.length),
                        nVars := t1.nVars + (ManageVars.nUsed st.vm - ManageVars.nUsed vm) }, st.vm, new,
        by simp only [en, hr], ⟨?_, ?_, ?_, s2.used⟩, fun b hb hl => ⟨fun x hx => ?_, fun con' hcon => ?_⟩, fun hx b hb => ?_,
        fun C hC => c1 C (hfwd C hC)⟩
      · exact inv1.replace_db s2.ref hcore _ _
      · simp only [k1, CardWorld.handedOut, List.length_range']
      · simp only [k2, en, List.length_append]; omega
      · have := (hmem b).2 ⟨hb, hl⟩
        have := hbuf x hx
        omega
      · simp only at hcon
        rw [hr] at hcon
        cases hcon
        intro v hv h1 h2
        simp only at h2
        have hv' : v ∈ (t1.db.node con.id).valsFrom 1 := by
          rw [← (s2.ref.node con.id).valsFrom]; exact hv
        have := (hmem b).2 ⟨hb, hl⟩
        exact l2 v ((hvals v).2 ⟨hv', by omega, by omega⟩)
      · have ht := hsame hx
        obtain ⟨q1, q2⟩ := hb
        refine ⟨fun x hx' => q1 x (by simp only at hx'; rw [← ht]; exact hx'), fun con' hcon v hv h1 h2 => ?_⟩
        simp only at hcon h2
        rw [(s2.ref.node con'.id).valsFrom] at hv
        rw [ht] at hcon hv h2
        obtain ⟨l, hl⟩ := q2 con' hcon v hv h1 h2
        exact ⟨l, (by rw [ht]; exact hl : HasVal t1.db con'.id v l).ref s2.ref⟩

theorem encodeUb [LawfulVM VM] {vm : VM} (h : t.Inv (ManageVars.nUsed vm) cls ins own) (col : ClauseSet) (r : URange) :
    ∃ t' vm' new, t.encodeUb r vm col = some (t', vm', col ++ new) ∧ EncCall t vm cls ins own t' vm' new ∧
      (∀ b, r.contains b → b < wsumT (fun _ => true) ins → t'.EncUb b) ∧ SoundIf t'.db new := by
  obtain ⟨t', vm', new, e, i1, i2, -, i3⟩ := (h.reset .if_).encodeUbChange col r
  exact ⟨t', vm', new, e, ⟨i1.inv, i1.nVars, i1.nClauses, i1.used⟩, i2, by simpa using i3 [] (reset_soundIf t.db [])⟩

theorem reserve [LawfulVM VM] {vm : VM} (h : t.Inv (ManageVars.nUsed vm) cls ins own) :
    ∃ t' vm', t.reserve vm = some (t', vm') ∧
      t'.Inv (ManageVars.nUsed vm') cls ins (own ++ CardWorld.handedOut vm vm') ∧ t'.nClauses = t.nClauses ∧
      ManageVars.nUsed vm ≤ ManageVars.nUsed vm' ∧ t'.litBuffer = [] ∧ (t.litBuffer = [] → ∀ b, t.EncUb b → t'.EncUb b) := by
  obtain ⟨t1, e1, inv1, b1, k1, k2, x1, s1⟩ := h.extendTree none
  have hb1 : t1.litBuffer = [] := by rw [b1]; simp [fits]
  unfold Gte.reserve
  rw [e1]
  simp only
  cases hr : t1.root with
  | none =>
    simp only
    exact ⟨t1, vm, rfl, by simpa [CardWorld.handedOut] using inv1, k2, Nat.le_refl _, hb1,
      fun h0 b hb => by rw [s1 (by rw [h0]; rfl)]; exact hb⟩
  | some con =>
    simp only
    obtain ⟨hpc, hgap⟩ := inv1.root con hr
    obtain ⟨st, e2, s2, c2, -⟩ := reserveVars_spec (con.id + 1) (⟨t1.db, vm, []⟩ : St VM) con inv1.core.wf
      (Nat.lt_succ_self _) (Or.inr (by rw [hpc.offset]; exact Nat.zero_le _))
    rw [e2]
    simp only
    have s3 : Step (⟨t1.db, vm, cls⟩ : St VM) ⟨st.db, st.vm, cls⟩ := by
      obtain ⟨new, en, c1', c2', c3', c4'⟩ := s2.cls
      rw [c2] at en
      simp only [List.nil_append] at en
      subst en
      exact ⟨s2.ref, s2.used, s2.fresh, s2.aux, ⟨[], by simp, c1', c2', c3', c4'⟩⟩
    have hc := Core.step (st := (⟨t1.db, vm, cls⟩ : St VM)) inv1.core s3
    rw [← hr]
    refine ⟨_, _, rfl, inv1.replace_db s2.ref hc t1.nClauses t1.nVars, k2, s2.used, hb1, fun h0 b hb => ?_⟩
    have ht := s1 (by rw [h0]; rfl)
    obtain ⟨q1, q2⟩ := hb
    refine ⟨fun x hx' => (by simp only at hx'; rw [hb1] at hx'; cases hx'), fun con' hcon v hv h1 h2 => ?_⟩
    simp only at hcon h2
    rw [(s2.ref.node con'.id).valsFrom] at hv
    rw [ht] at hcon hv h2
    obtain ⟨l, hl⟩ := q2 con' hcon v hv h1 h2
    exact ⟨l, (by rw [ht]; exact hl : HasVal t1.db con'.id v l).ref s2.ref⟩

/-- What `enforce_ub` returns. -/
theorem enforceUb_cases (h : t.Inv n cls ins own) (b : Nat) :
    (wsumT (fun _ => true) ins ≤ b ∧ t.enforceUb b = .ok []) ∨
    (b < wsumT (fun _ => true) ins ∧ t.enforceUb b = .err .notEncoded ∧ ¬ t.EncUb b) ∨
    (b < wsumT (fun _ => true) ins ∧ t.EncUb b ∧ ∃ A, t.enforceUb b = .ok A ∧
      (∀ x ∈ t.litBuffer, b < x.2 ∧ x.1.neg ∈ A) ∧
      (∀ con, t.root = some con → ∀ v ∈ (t.db.node con.id).valsFrom 1, b < con.map v →
        con.map v ≤ b + t.maxLeafWeight → ∃ l, HasVal t.db con.id v l ∧ l.neg ∈ A) ∧
      ∀ a ∈ A, (∃ x ∈ t.litBuffer, a = x.1.neg) ∨
        ∃ con v l, t.root = some con ∧ b < con.map v ∧ HasVal t.db con.id v l ∧ a = l.neg) := by
  unfold Gte.enforceUb
  rw [h.weightSum]
  by_cases hb : b ≥ wsumT (fun _ => true) ins
  · rw [if_pos hb]; exact Or.inl ⟨hb, rfl⟩
  · rw [if_neg hb]
    have hlt : b < wsumT (fun _ => true) ins := Nat.lt_of_not_le hb
    refine Or.inr ?_
    by_cases hany : (t.litBuffer.any fun x => decide (x.2 ≤ b)) = true
    · rw [if_pos hany]
      obtain ⟨x, hx, hxb⟩ := List.any_eq_true.1 hany
      have hxb' : x.2 ≤ b := by simpa using hxb
      exact Or.inl ⟨hlt, rfl, fun henc => by have := henc.1 x hx; omega⟩
    · rw [if_neg hany]
      have hall : ∀ x ∈ t.litBuffer, b < x.2 := fun x hx => by
        rcases Nat.lt_or_ge b x.2 with h' | h'
        · exact h'
        · exact absurd (List.any_eq_true.2 ⟨x, hx, by simpa using h'⟩) hany
      have hbufm : ∀ x ∈ t.litBuffer, x.1.neg ∈ t.litBuffer.map fun x => x.1.neg := fun x hx =>
        List.mem_map.2 ⟨x, hx, rfl⟩
      simp only
      cases hr : t.root with
      | none =>
        refine Or.inr ⟨hlt, ⟨hall, fun con hcon => (by rw [hr] at hcon; cases hcon)⟩, _, rfl, fun x hx => ⟨hall x hx, hbufm x hx⟩,
          fun con hcon => (by cases hcon), fun a ha => Or.inl ?_⟩
        obtain ⟨x, hx, rfl⟩ := List.mem_map.1 ha
        exact ⟨x, hx, rfl⟩
      | some con =>
        simp only
        obtain ⟨hpc, hgap⟩ := h.root con hr
        have hvals := fun v => mem_rootVals hpc (lo := b) (hi := b + t.maxLeafWeight) (v := v)
        generalize (t.db.node con.id).valsRange (con.revMapRoundUp (b + 1)) (con.revMap (b + t.maxLeafWeight) + 1) = vals
          at hvals ⊢
        rcases enforceVals_spec h.core.wf vals fun v hv => ((hvals v).1 hv).1 with ⟨A, e, h1, h2⟩ | ⟨e, v, hv, h1⟩
        · rw [e]
          refine Or.inr ⟨hlt, ⟨hall, fun con' hcon v hv h3 h4 => ?_⟩, _, rfl,
            fun x hx => ⟨hall x hx, List.mem_append_left _ (hbufm x hx)⟩, fun con' hcon v hv h3 h4 => ?_, fun a ha => ?_⟩
          · rw [hr] at hcon; cases hcon
            obtain ⟨l, hl, -⟩ := h1 v ((hvals v).2 ⟨hv, h3, h4⟩)
            exact ⟨l, hl⟩
          · cases hcon
            obtain ⟨l, hl, hm⟩ := h1 v ((hvals v).2 ⟨hv, h3, h4⟩)
            exact ⟨l, hl, List.mem_append_right _ hm⟩
          · rcases List.mem_append.1 ha with ha | ha
            · obtain ⟨x, hx, rfl⟩ := List.mem_map.1 ha
              exact Or.inl ⟨x, hx, rfl⟩
            · obtain ⟨v, hv, l, hl, e'⟩ := h2 a ha
              exact Or.inr ⟨con, v, l, rfl, ((hvals v).1 hv).2.1, hl, e'⟩
        · rw [e]
          refine Or.inl ⟨hlt, rfl, fun henc => h1 ?_⟩
          obtain ⟨q1, q2, q3⟩ := (hvals v).1 hv
          exact henc.2 con hr v q1 q2 q3

/-- Models of sufficient clauses and the assumptions respect the bound. -/
theorem sound (h : t.Inv n cls ins own) {b : Nat} {A : List Lit} (hA : t.enforceUb b = .ok A) {C : ClauseSet}
    (hC : SoundIf t.db C) {m : Asg} (hm : ClauseSet.sat m C) (hc : cubeSat m A) : wsum m ins ≤ b := by
  rw [wsum_eq_wsumT]
  rcases h.enforceUb_cases b with ⟨hb, e⟩ | ⟨_, e, -⟩ | ⟨hb, -, A', e, h1, h2, -⟩
  · exact Nat.le_trans (wsumT_le _ _) hb
  · rw [e] at hA; cases hA
  · rw [e] at hA; cases hA
    rcases Nat.lt_or_ge b (wsumT (trueLits m) ins) with hlt | hge
    · exfalso
      have hneg : ∀ l : Lit, l.neg ∈ A → l.holds m = false := fun l hl => by
        have := hc _ hl
        rw [Lit.holds_neg] at this
        cases hh : l.holds m with
        | false => rfl
        | true => rw [hh] at this; cases this
      have hv := h.val (trueLits m)
      rw [wsumT_zero (T := trueLits m) fun x hx => hneg x.1 (h1 x hx).2] at hv
      unfold rootVal at hv
      cases hr : t.root with
      | none => rw [hr] at hv; simp only at hv; omega
      | some con =>
        rw [hr] at hv
        simp only at hv
        obtain ⟨hpc, hgap⟩ := h.root con hr
        obtain ⟨v, ⟨u, hu, rfl⟩, h3, h4⟩ := hgap (trueLits m) b (by omega)
        rcases hu.mem_vals h.core.wf with h0 | hmem
        · rw [h0, NodeCon.map_zero] at h3; omega
        · obtain ⟨l, hl, hlA⟩ := h2 con hr u hmem h3 h4
          have := hl.if_ h.core.wf hC hm (T := trueLits m) (fun x hx => hx) hu
          rw [hneg l hlA] at this
          cases this
    · exact hge

/-- Every assignment that respects the bound extends to a model. -/
theorem complete (h : t.Inv n cls ins own) {b : Nat} {A : List Lit} (hA : t.enforceUb b = .ok A) {a : Asg}
    (ha : wsum a ins ≤ b) : ∃ m, (∀ v, v ∉ own → m v = a v) ∧ ClauseSet.sat m cls ∧ cubeSat m A := by
  obtain ⟨m, h1, h2, h3, h4⟩ := h.core.complete a
  refine ⟨m, h1, h3, fun x hx => ?_⟩
  have hsum : wsum m ins ≤ b := by
    rw [wsum_congr fun x hx => h4 x.1 (List.mem_map.2 ⟨x, hx, rfl⟩)]; exact ha
  rw [wsum_eq_wsumT, ← h.val] at hsum
  rcases h.enforceUb_cases b with ⟨hb, e⟩ | ⟨_, e, -⟩ | ⟨hb, -, A', e, hbuf, -, hA'⟩
  · rw [e] at hA; cases hA; cases hx
  · rw [e] at hA; cases hA
  · rw [e] at hA; cases hA
    rcases hA' x hx with ⟨y, hy, rfl⟩ | ⟨con, v, l, hr, hv, hl, rfl⟩
    · rw [Lit.holds_neg]
      cases hh : y.1.holds m with
      | false => rfl
      | true =>
        have := wsumT_mem_le (T := trueLits m) hy hh
        have := (hbuf y hy).1
        omega
    · rw [Lit.holds_neg]
      cases hh : l.holds m with
      | false => rfl
      | true =>
        have hle := (hl.strict h.core.wf h2).1 hh
        have := con.map_mono hle
        unfold rootVal at hsum
        rw [hr] at hsum
        simp only [conVal] at hsum
        omega

end Inv
end Gte

namespace GteWorld
variable {VM : Type} [ManageVars VM]

/-- The invariant of all reachable states. -/
structure Inv (w : GteWorld VM) : Prop where
  gte : w.gte.Inv (ManageVars.nUsed w.vm) w.cls w.ins w.own
  nClauses : w.gte.nClauses = w.cls.length
  ubEnc : ∀ b, b < wsumT (fun _ => true) w.ins → w.ub b → w.gte.EncUb b

/-- What every operation guarantees. -/
structure Next (w w' : GteWorld VM) (op : GteOp VM) : Prop where
  inv : w'.Inv
  nVars : op ≠ .reserve → w.gte.nVars = w.own.length → w'.gte.nVars = w'.own.length

theorem start_inv (lits : List (Lit × Nat)) (vm : VM) (hn : (lits.map (·.1)).Nodup)
    (h : ∀ x ∈ lits, 0 < x.2 ∧ x.1.var < ManageVars.nUsed vm) : (start lits vm).Inv := by
  have hc := (CardWorld.start_inv (lits.map (·.1)) vm (fun l hl => by
    obtain ⟨x, hx, rfl⟩ := List.mem_map.1 hl
    exact (h x hx).2)).tot.core
  have hb : (start lits vm).gte.litBuffer = lits := LitMap.ofList_nodup lits hn
  refine ⟨⟨hc, fun con hcon => (by cases hcon), fun T => ?_, fun x hx => ?_⟩, rfl, fun b _ h => h.elim⟩
  · rw [hb]; exact Nat.zero_add _
  · rw [hb] at hx
    exact ⟨(h x hx).1, List.mem_map.2 ⟨x, hx, rfl⟩⟩

theorem step_spec [LawfulVM VM] (w : GteWorld VM) (hw : w.Inv) (op : GteOp VM) (ha : w.allowed op) :
    ∃ w', w.step op = some w' ∧ Next w w' op := by
  obtain ⟨ht, hc, hu⟩ := hw
  have enc : ∀ {r : Option (Gte × VM × ClauseSet)} {t' : Gte} {vm' : VM} {new : ClauseSet} (ub : Nat → Prop),
      r = some (t', vm', w.cls ++ new) → Gte.EncCall w.gte w.vm w.cls w.ins w.own t' vm' new →
      (∀ b, b < wsumT (fun _ => true) w.ins → ub b → t'.EncUb b) →
      ∃ w', w.encoded r ub = some w' ∧ Next w w' op := by
    intro r t' vm' new ub e h a1
    subst e
    refine ⟨_, rfl, ⟨h.inv, ?_, a1⟩, fun _ hv => ?_⟩
    · simp only [h.nClauses, hc, List.length_append]
    · simp only [h.nVars, hv, List.length_append]
  cases op with
  | add lits =>
    refine ⟨_, rfl, ⟨⟨?_, ht.root, fun T => ?_, fun x hx => ?_⟩, hc, ?_⟩, fun _ h => h⟩
    · have := ht.core.add (lits.map (·.1)) fun l hl => by
        obtain ⟨x, hx, rfl⟩ := List.mem_map.1 hl
        exact (ha x hx).2
      rw [← List.map_append] at this
      exact this
    · have := ht.val T
      show w.gte.rootVal T + wsumT T (lits.foldl LitMap.addLit w.gte.litBuffer) = _
      rw [LitMap.addLits_sum, wsumT_append]
      omega
    · rcases LitMap.addLits_mem _ _ x hx with h | ⟨y, hy, h1, h2⟩
      · obtain ⟨h1, h2⟩ := ht.buf x h
        exact ⟨h1, by simp only [List.map_append, List.mem_append]; exact Or.inl h2⟩
      · have := (ha y hy).1
        refine ⟨by omega, ?_⟩
        simp only [List.map_append, List.mem_append]
        exact Or.inr (List.mem_map.2 ⟨y, hy, h1.symm⟩)
    · rintro b hb ⟨h, rfl⟩
      exact hu b (by simpa using hb) h
  | encodeUb r =>
    obtain ⟨t', vm', new, e, h, k1, -⟩ := ht.encodeUb w.cls r
    exact enc _ e h fun b hb hr => k1 b hr hb
  | encodeUbChange r =>
    obtain ⟨t', vm', new, e, h, k1, k2, -⟩ := ht.encodeUbChange w.cls r
    exact enc _ e h fun b hb hr => hr.elim (fun hr => k1 b hr hb) fun hr => k2 hr.2 b (hu b hb hr.1)
  | reserve =>
    obtain ⟨t', vm', e, h1, h2, h3, -, h4⟩ := ht.reserve
    refine ⟨⟨t', vm', w.cls, w.ins, w.own ++ CardWorld.handedOut w.vm vm', fun b => w.ub b ∧ w.gte.litBuffer = []⟩, ?_,
      ⟨h1, by simp only [h2, hc], fun b hb hr => h4 hr.2 b (hu b hb hr.1)⟩, fun h => absurd rfl h⟩
    simp only [GteWorld.step, e, Option.map_some, encoded]
  | rehash buffer =>
    refine ⟨_, rfl, ⟨⟨ht.core, ht.root, fun T => ?_, fun x hx => ht.buf x (ha.mem_iff.1 hx)⟩, hc, fun b hb hr => ?_⟩, fun _ h => h⟩
    · show w.gte.rootVal T + wsumT T buffer = _
      rw [wsumT_perm T ha]
      exact ht.val T
    · obtain ⟨q1, q2⟩ := hu b hb hr
      exact ⟨fun x hx => q1 x (ha.mem_iff.1 hx), q2⟩
  | useVars vm =>
    exact ⟨_, rfl, ⟨{ ht with core := ht.core.more ha }, hc, hu⟩, fun _ h => h⟩

theorem Reach.inv [LawfulVM VM] {R : GteOp VM → Prop} {w : GteWorld VM} (h : Reach R w) : w.Inv := by
  induction h with
  | start lits vm hn h => exact start_inv lits vm hn h
  | step w w' op _ _ ha hs ih =>
    obtain ⟨w2, e, n⟩ := step_spec w ih op ha
    rw [e] at hs
    cases hs
    exact n.inv

end GteWorld
end RustSat
