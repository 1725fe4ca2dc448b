import Verif.Lemmas.CertDefine
import Verif.Model.CertGte
/-
`define_weighted_cert` does the same as `define_weighted`, and the checker accepts what it writes.
-/
namespace RustSat
namespace TotDb
open Pigeons VeriPb

theorem Good.children {db : Db} {id : Nat} (h : Good db id) {l r : NodeCon} (hs : (db.node id).shape = .inner l r) :
    Good db l.id ∧ Good db r.id ∧ PlainCon db l ∧ PlainCon db r ∧
      (db.node id).nLeaves = (db.node l.id).nLeaves + (db.node r.id).nLeaves := by
  cases h with
  | leaf e => rw [e] at hs; cases hs
  | inner e hl hr hn gl gr =>
    rw [e] at hs
    cases hs
    exact ⟨gl, gr, hl, hr, hn⟩

theorem max_inner {db : Db} (hw : db.WF) {id : Nat} {l r : NodeCon} (hs : (db.node id).shape = .inner l r)
    (hl : PlainCon db l) (hr : PlainCon db r) :
    (db.node id).maxVal = (db.node l.id).maxVal * l.multiplier + (db.node r.id).maxVal * r.multiplier := by
  rw [← value_all_max hw, value_eq hw, hs]
  simp only [conVal]
  rw [hl.map, hr.map, value_all_max hw, value_all_max hw]

theorem Good.max_pos {db : Db} (hw : db.WF) {id : Nat} (h : Good db id) : 0 < (db.node id).maxVal := by
  induction h with
  | leaf e => rw [e]; exact Nat.one_pos
  | @inner id l r e hl hr hn gl gr il ir =>
    rw [max_inner hw e hl hr]
    have := Nat.mul_pos il hl.mult
    omega

/-- A node is a leaf or can have a value of at least two. -/
theorem Good.kindW {db : Db} (hw : db.WF) {id : Nat} (h : Good db id) :
    (∃ l, db.node id = .leaf l) ∨ ((∀ l, db.node id ≠ .leaf l) ∧ 2 ≤ (db.node id).maxVal) := by
  cases h with
  | leaf e => exact Or.inl ⟨_, e⟩
  | @inner _ l r e hl hr hn gl gr =>
    refine Or.inr ⟨fun l hh => ?_, ?_⟩
    · rw [hh] at e; cases e
    · rw [max_inner hw e hl hr]
      have := Nat.mul_pos (gl.max_pos hw) hl.mult
      have := Nat.mul_pos (gr.max_pos hw) hr.mult
      omega

theorem OutAt.litAt {db : Db} (hw : db.WF) {id k v : Nat} {l : Lit} (h : OutAt db id k v l) : db.litAt id v = some l := by
  obtain ⟨s, h⟩ := h
  unfold Db.litAt
  cases hn : db.node id with
  | dummy => rw [hn] at h; cases h
  | leaf x => rw [hn] at h; cases h
  | unit lits dp nl lc rc =>
    rw [hn] at h
    simp only [Node.outData, Option.map_eq_some_iff] at h
    obtain ⟨d, h1, h2⟩ := h
    injection h2 with h2 h3
    subst h2 h3
    simp only
    rw [if_neg (by omega), Nat.add_sub_cancel, h1]
    rfl
  | general lits dp nl m lc rc =>
    rw [hn] at h
    simp only [Node.outData] at h
    simp only
    have hok := hw.nodes id _ (Db.getElem?_node (Db.node_lt (by rw [hn]; intro hh; cases hh)))
    rw [hn] at hok
    obtain ⟨-, -, -, -, hp, -⟩ := hok
    cases hv : valIdx lits v with
    | none =>
      exact absurd (List.mem_map.2 ⟨_, List.mem_of_getElem? h, rfl⟩) (valIdx_none hv)
    | some j =>
      obtain ⟨d, hd⟩ := valIdx_some hv
      have hj : j = k := by
        obtain ⟨j1, j2⟩ := List.getElem?_eq_some_iff.1 hd
        obtain ⟨k1, k2⟩ := List.getElem?_eq_some_iff.1 h
        rcases Nat.lt_trichotomy j k with hlt | hlt | hlt
        · have := List.pairwise_iff_getElem.1 hp j k (by simpa using j1) (by simpa using k1) hlt
          rw [List.getElem_map, List.getElem_map, j2, k2] at this
          exact absurd this (Nat.lt_irrefl _)
        · exact hlt
        · have := List.pairwise_iff_getElem.1 hp k j (by simpa using k1) (by simpa using j1) hlt
          rw [List.getElem_map, List.getElem_map, j2, k2] at this
          exact absurd this (Nat.lt_irrefl _)
      subst hj
      simp only [Option.bind_some]
      rw [h]
      rfl

theorem HasVal.litAt {db : Db} (hw : db.WF) {id v : Nat} {l : Lit} (h : HasVal db id v l) : db.litAt id v = some l := by
  rcases h with ⟨h1, rfl⟩ | ⟨k, s, h1, -⟩
  · unfold Db.litAt; rw [h1]; rfl
  · exact OutAt.litAt hw ⟨_, h1⟩

theorem ops_add_ne {a b : Ops} (h : a ≠ []) : a.add b ≠ [] := by
  unfold Ops.add
  rw [if_neg h]
  by_cases hb : b = []
  · rw [if_pos hb]; exact h
  · rw [if_neg hb]; simp

theorem ifW_arith {W k l r ml mr : Nat} {o ol or : Int} (hml : 0 < ml) (hmr : 0 < mr) (hk : l * ml + r * mr = k) (h0 : 0 < k)
    (hW : k ≤ W) (ho : o = 0 ∨ o = 1) (hol : ol = 0 ∨ ol = 1) (hor : or = 0 ∨ or = 1) (x y z : Int)
    (hx : x = y * ml + z * mr) :
    0 ≤ ((W - x) - (W - (k : Nat) + 1) * (1 - o)) + ml * (y - l * ol) + mr * (z - r * or) ↔
      ((0 < l → ol = 1) → (0 < r → or = 1) → o = 1) := by
  obtain ⟨A, hA⟩ : ∃ A, A = l * ml := ⟨_, rfl⟩
  obtain ⟨B, hB⟩ : ∃ B, B = r * mr := ⟨_, rfl⟩
  have hlA : 0 < l ↔ 0 < A := by
    rw [hA]; exact ⟨fun h => Nat.mul_pos h hml, fun h => Nat.pos_of_mul_pos_right h⟩
  have hrB : 0 < r ↔ 0 < B := by
    rw [hB]; exact ⟨fun h => Nat.mul_pos h hmr, fun h => Nat.pos_of_mul_pos_right h⟩
  have e : ((W : Int) - x) - (W - (k : Nat) + 1) * (1 - o) + ml * (y - l * ol) + mr * (z - r * or) =
      W - (W - (k : Nat) + 1) * (1 - o) - A * ol - B * or := by
    rw [hx, hA, hB]
    push_cast
    ring
  rw [e, hlA, hrB]
  rw [← hA, ← hB] at hk
  subst hk
  rcases ho with rfl | rfl <;> rcases hol with rfl | rfl <;> rcases hor with rfl | rfl <;> simp <;> omega

section
variable {VM : Type} [ManageVars VM]

/-- Changes of semantics only. -/
theorem CI.ref {st st' : CSt VM} {s : State} (h : CI st s) (hr : DbRef st.db st'.db)
    (ho : ∀ i k v l, OutAt st'.db i k v l → OutAt st.db i k v l) (hv : st'.vm = st.vm) (hd : st'.defs = st.defs)
    (hp : st'.proof = st.proof) : CI st' s := by
  refine ⟨hr.wf h.wf, ?_, ?_, by rw [hp]; exact h.next⟩
  · rw [hv]
    exact ⟨fun i l e => h.aux.leaf i l (hr.leaf.1 e), fun i k v l e => h.aux.out i k v l (ho _ _ _ _ e),
      fun i k v l j l' e e' => h.aux.disj i k v l j l' (ho _ _ _ _ e) (hr.leaf.1 e'),
      fun i k v i' k' v' l e e' => h.aux.inj i k v i' k' v' l (ho _ _ _ _ e) (ho _ _ _ _ e')⟩
  · rw [hv, hd]
    refine ⟨h.inv.ok, fun D hD v hv' => ?_, fun i k e he => (h.inv.defs i k e he).rel (fun _ _ => keep_of_ref) hr h.wf, h.inv.ids⟩
    obtain ⟨h1, h2⟩ := h.inv.cov D hD v hv'
    exact ⟨h1, fun i k val l e hl => h2 i k val l (ho _ _ _ _ e) hl⟩

/-- Deriving a clause of a weighted node: accepted, and the constraint is the clause. -/
theorem certClauseW_spec {st : CSt VM} {s : State} (h : CI st s) {left right this : Nat × Nat} {lmul rmul : Nat}
    {ll rl : List (Lit × Nat)} {c : Clause} (hl : SemArg st.db left.1 left.2 .onlyIf ll)
    (hr : SemArg st.db right.1 right.2 .onlyIf rl) (ht : SemArg st.db this.1 this.2 .if_ (scale lmul ll ++ scale rmul rl))
    (hn : ∀ l, st.db.node this.1 ≠ .leaf l)
    (hf : ∀ b, Clause.sat b c ↔ 0 ≤ ifFun st.db this.1 this.2 b + lmul * onlyFun st.db left.1 left.2 b +
      rmul * onlyFun st.db right.1 right.2 b) :
    ∃ n st' s', certClauseW st left right this lmul rmul ll rl c = some st' ∧ st'.db = st.db ∧ st'.vm = st.vm ∧
      st'.cls = st.cls ++ [(c, n)] ∧ CStep st st' s s' ∧ CI st' s' ∧ ∃ e, st'.defs.lookup this = some e := by
  unfold certClauseW
  obtain ⟨ld, st1, s1, a1, a2, a3, a4, a5, a6, a7, -⟩ := defineSemantics_spec h hl
  rw [a1]
  simp only
  rw [← a2] at hr ht
  obtain ⟨rd, st2, s2, b1, b2, b3, b4, b5, b6, b7, -⟩ := defineSemantics_spec a6 hr
  rw [b1]
  simp only
  rw [← b2] at ht
  obtain ⟨td, st3, s3, c1, c2, c3, c4, c5, c6, c7, c8⟩ := defineSemantics_spec b6 ht
  rw [c1]
  simp only
  have hdb2 : st2.db = st.db := by rw [b2, a2]
  have hdb3 : st3.db = st.db := by rw [c2, hdb2]
  obtain ⟨htd, e, he⟩ := c8 (by rw [hdb2]; exact hn)
  rw [a2] at b7
  rw [hdb2] at c7
  have dT := c7.den c6.inv.ok c6.inv.cov
  have dR := (b7.grow (V' := Covered (ManageVars.nUsed st3.vm) st3.db st3.defs) c5.grow
    (fun v hv => by rw [c2, c3]; exact c5.covered hv)).den c6.inv.ok c6.inv.cov
  have dL := (a7.grow (V' := Covered (ManageVars.nUsed st3.vm) st3.db st3.defs) (b5.grow.trans c5.grow)
    (fun v hv => by rw [c2, c3, b2, b3]; exact c5.covered (b5.covered hv))).den c6.inv.ok c6.inv.cov
  have dAll := (dT.add (dL.mul lmul)).add (dR.mul rmul)
  have hne : (td.ops.add (ld.ops.mul lmul)).add (rd.ops.mul rmul) ≠ [] := by
    have h0 : td.ops ≠ [] := by
      cases td with
      | none => exact absurd rfl htd
      | id n => simp [SemDef.ops]
      | ax l => simp [SemDef.ops]
    exact ops_add_ne (ops_add_ne h0)
  obtain ⟨D, d1, d2, d3, d4, d5⟩ := dAll.pol hne
  unfold deriveClause Proof.operations
  rw [if_neg d4]
  simp only
  refine ⟨st3.proof.nextId, _, s3.push D, rfl, hdb3, by rw [c3, b3, a3], ?_, ?_, ?_, e, he⟩
  · show st3.cls ++ _ = _
    rw [c4, b4, a4]; rfl
  · refine (a5.trans b5).trans (c5.trans ⟨⟨[_], rfl, by simp only [run, d5], by simp [witnessVars]⟩, fun hh => ?_, Grow.push _ _,
      ⟨[(c, st3.proof.nextId)], rfl, ?_⟩, fun _ _ h => h, fun _ h => Or.inl h, fun _ h => h⟩)
    · show s3.next + 1 = st3.proof.nextId + 1; rw [hh]
    · intro x hx
      have : x = (c, st3.proof.nextId) := by simpa using hx
      rw [this, ← c6.next]
      refine ⟨⟨Nat.le_refl _, Nat.lt_succ_self _, fun hn => absurd (c6.inv.ids _ hn).1 (Nat.lt_irrefl _)⟩, D, get_push _ _, fun b => ?_⟩
      rw [d3, hf]
      rfl
  · exact ⟨c6.wf, c6.aux, c6.inv.push d1 d2, by show s3.next + 1 = st3.proof.nextId + 1; rw [c6.next]⟩

/-- The setting in which the clauses of one output of a weighted node are derived. -/
structure GCtx (db : Db) (id k val : Nat) (olit : Lit) (lc rc : NodeCon) : Prop where
  ctx : Ctx db id k val olit lc rc
  shape : (db.node id).shape = .inner lc rc
  good : Good db id
  max : (db.node id).maxVal < isizeMax
  pos : 0 < val
  le : val ≤ (db.node id).maxVal

namespace GCtx
variable {db db' : Db} {id k val : Nat} {olit : Lit} {lc rc : NodeCon}

theorem ref (h : GCtx db id k val olit lc rc) (hr : DbRef db db') : GCtx db' id k val olit lc rc :=
  ⟨h.ctx.ref hr, by rw [hr.shape]; exact h.shape, h.good.rel hr, by rw [(hr.node id).maxVal]; exact h.max, h.pos,
    by rw [(hr.node id).maxVal]; exact h.le⟩

theorem leaves (h : GCtx db id k val olit lc rc) :
    leafLits db id = scale lc.multiplier (leafLits db lc.id) ++ scale rc.multiplier (leafLits db rc.id) := by
  rw [leafLits_eq h.ctx.wf, h.shape]
  rfl

theorem maxL (h : GCtx db id k val olit lc rc) : (db.node lc.id).maxVal < isizeMax ∧ (db.node rc.id).maxVal < isizeMax := by
  have := max_inner h.ctx.wf h.shape h.ctx.left h.ctx.right
  have h1 := h.max
  have h2 := Nat.le_mul_of_pos_right (db.node lc.id).maxVal h.ctx.left.mult
  have h3 := Nat.le_mul_of_pos_right (db.node rc.id).maxVal h.ctx.right.mult
  omega

end GCtx

theorem Good.semArgW {db : Db} (hw : db.WF) {id : Nat} (h : Good db id) (hmax : (db.node id).maxVal < isizeMax)
    {value : Nat} {ty : SemDefType} (hr : value ≤ (db.node id).maxVal) (h1 : ty = .if_ → 0 < value)
    (hl : 0 < value → ∃ l, db.litAt id value = some l) : SemArg db id value ty (leafLits db id) :=
  ⟨h.kindW hw, h.leafOK hw, hmax, by omega, h1, fun _ => hr, fun h0 _ => hl h0⟩

theorem plain_noLimit {db : Db} {c : NodeCon} (h : PlainCon db c) (v : Nat) : c.revMapNoLimit v = v / c.multiplier := by
  unfold NodeCon.revMapNoLimit
  rw [h.divisor, h.offset]
  simp

/-- One clause of a weighted node. -/
theorem GCtx.clause {st : CSt VM} {s : State} (h : CI st s) {id k val : Nat} {olit : Lit} {lc rc : NodeCon}
    (hx : GCtx st.db id k val olit lc rc) {lv u : Nat} (hv : lv * lc.multiplier + u * rc.multiplier = val)
    (hl : lv ≤ (st.db.node lc.id).maxVal) (hr : u ≤ (st.db.node rc.id).maxVal)
    (hll : 0 < lv → ∃ l, st.db.litAt lc.id lv = some l) (hrl : 0 < u → ∃ l, st.db.litAt rc.id u = some l) {c : Clause}
    (hc : ∀ b, Clause.sat b c ↔ ((0 < lv → outBit b (st.db.litAt lc.id lv) = 1) →
      (0 < u → outBit b (st.db.litAt rc.id u) = 1) → lbit b olit = 1)) :
    ∃ n st' s', certClauseW st (lc.id, lv) (rc.id, u) (id, val) lc.multiplier rc.multiplier (leafLits st.db lc.id)
        (leafLits st.db rc.id) c = some st' ∧ st'.db = st.db ∧ st'.vm = st.vm ∧
      st'.cls = st.cls ++ [(c, n)] ∧ CStep st st' s s' ∧ CI st' s' ∧ ∃ e, st'.defs.lookup (id, val) = some e := by
  obtain ⟨gl, gr, pl, pr, -⟩ := hx.good.children hx.shape
  have ho := hx.ctx.out.litAt hx.ctx.wf
  refine certClauseW_spec h (gl.semArgW h.wf hx.maxL.1 hl (fun hh => by cases hh) hll)
    (gr.semArgW h.wf hx.maxL.2 hr (fun hh => by cases hh) hrl) ?_ ?_ fun b => ?_
  · rw [← hx.leaves]
    exact hx.good.semArgW h.wf hx.max hx.le (fun _ => hx.pos) fun _ => ⟨_, ho⟩
  · intro l hh
    have := hx.shape
    rw [hh] at this
    cases this
  · simp only [ifFun, onlyFun]
    rw [ifW_arith pl.mult pr.mult hv hx.pos hx.le (outBit_opt b _) (outBit_opt b _) (outBit_opt b _), ho]
    · exact hc b
    · rw [hx.ctx.value]
      unfold conVal
      rw [pl.map, pr.map]
      push_cast
      rfl

/-- What is demanded of the buffers. -/
structure BufOK (db : Db) (lc rc : NodeCon) (b : Bufs) : Prop where
  lenL : b.left.length = (db.node lc.id).nLeaves
  lenR : b.right.length = (db.node rc.id).nLeaves
  left : b.leftInit = true → b.left = leafLits db lc.id
  right : b.rightInit = true → b.right = leafLits db rc.id

theorem BufOK.ref {db db' : Db} {lc rc : NodeCon} {b : Bufs} (hw : db.WF) (hr : DbRef db db') :
    BufOK db' lc rc b ↔ BufOK db lc rc b := by
  constructor
  · intro h
    refine ⟨?_, ?_, fun e => ?_, fun e => ?_⟩
    · rw [h.lenL, (hr.node _).nLeaves]
    · rw [h.lenR, (hr.node _).nLeaves]
    · rw [h.left e, leafLits_rel hr hw]
    · rw [h.right e, leafLits_rel hr hw]
  · intro h
    refine ⟨?_, ?_, fun e => ?_, fun e => ?_⟩
    · rw [h.lenL, (hr.node _).nLeaves]
    · rw [h.lenR, (hr.node _).nLeaves]
    · rw [h.left e, leafLits_rel hr hw]
    · rw [h.right e, leafLits_rel hr hw]

/-- A certified define function for weighted nodes below a bound: it does the same as one without certificates, and
the checker accepts what it writes. -/
def CertSpecW (f : DefineWCert VM) (g : St VM → Nat → Nat → Option (Option Lit × St VM)) (bound : Nat) : Prop :=
  ∀ (st : CSt VM) (s : State) (id val : Nat) (leaves : List (Lit × Nat)) (init needed : Bool), CI st s →
    Good st.db id → id < bound → (st.db.node id).maxVal < isizeMax → leaves.length = (st.db.node id).nLeaves →
    (init = true → leaves = leafLits st.db id) →
    ∃ r st' leaves' init' s', f st id val leaves init needed = some (r, st', leaves', init') ∧
      g st.proj id val = some (r, st'.proj) ∧ CStep st st' s s' ∧ CI st' s' ∧
      leaves'.length = (st.db.node id).nLeaves ∧ (init' = true → leaves' = leafLits st.db id) ∧
      (r ≠ none → needed = true → init' = true) ∧ (init = true → init' = true) ∧
      (r ≠ none → (∀ l, ¬ HasVal st.db id val l) → ∃ e, st'.defs.lookup (id, val) = some e)

/-- What the functions for the clauses of a weighted node do. -/
structure GPost (g : Option (St VM)) (id val : Nat) (lc rc : NodeCon) (st st' : CSt VM) (s s' : State) (b b' : Bufs)
    (some' : Prop) : Prop where
  same : g = some st'.proj
  step : Step st.proj st'.proj
  cert : CStep st st' s s'
  inv : CI st' s'
  buf : BufOK st.db lc rc b'
  keepL : b.leftInit = true → b'.leftInit = true
  keepR : b.rightInit = true → b'.rightInit = true
  new : some' → b'.leftInit = true ∧ b'.rightInit = true ∧ ∃ e, st'.defs.lookup (id, val) = some e

theorem sumLoopCert_spec {f : DefineWCert VM} {g : St VM → Nat → Nat → Option (Option Lit × St VM)} {bound : Nat}
    (hf : CertSpecW f g bound) (hg : DefW g bound) {id k val : Nat} {olit : Lit} {lc rc : NodeCon}
    (hlb : lc.id < bound) (hrb : rc.id < bound) {rmax : Nat} :
    ∀ (lvals : List Nat) (st : CSt VM) (s : State) (b : Bufs), CI st s → GCtx st.db id k val olit lc rc →
    BufOK st.db lc rc b → rmax = (st.db.node rc.id).maxVal →
    (∀ lv ∈ lvals, lv ∈ (st.db.node lc.id).valsFrom 1 ∧ lc.map lv < val) →
    ∃ st' b' s', sumLoopCert f id lc rc rmax val olit lvals st b = some (st', b') ∧
      GPost (sumLoop g lc rc rmax val olit lvals st.proj) id val lc rc st st' s s' b b'
        (∃ lv ∈ lvals, ∃ u ∈ (st.db.node rc.id).valsFrom 1, lc.map lv + rc.map u = val) := by
  intro lvals
  induction lvals with
  | nil =>
    intro st s b hci hx hb hmax hlv
    exact ⟨st, b, s, rfl, rfl, Step.refl _, CStep.refl _ _, hci, hb, fun h => h, fun h => h, fun h => by simp at h⟩
  | cons lv rest ih =>
    intro st s b hci hx hb hmax hlv
    obtain ⟨hlm, hlt⟩ := hlv lv (by simp)
    obtain ⟨gl, gr, pl, pr, hnl⟩ := hx.good.children hx.shape
    have hmv : ∀ u, lc.map lv + rc.map u = val → (val - lc.map lv) % rc.multiplier = 0 ∧
        rc.revMap (val - lc.map lv) = u := fun u hu => by
      have hu : val - lc.map lv = u * rc.multiplier := by rw [pr.map] at hu; omega
      rw [hu]
      exact ⟨Nat.mul_mod_left _ _, by rw [pr.revMap, Nat.mul_div_cancel _ pr.mult]⟩
    have next : ∀ (st1 : CSt VM) (s1 : State) (b1 : Bufs), Step st.proj st1.proj → CStep st st1 s s1 → CI st1 s1 →
        BufOK st.db lc rc b1 → (b.leftInit = true → b1.leftInit = true) → (b.rightInit = true → b1.rightInit = true) →
        ((∃ u ∈ (st.db.node rc.id).valsFrom 1, lc.map lv + rc.map u = val) →
          b1.leftInit = true ∧ b1.rightInit = true ∧ ∃ e, st1.defs.lookup (id, val) = some e) →
        ∃ st' b' s', sumLoopCert f id lc rc rmax val olit rest st1 b1 = some (st', b') ∧
          GPost (sumLoop g lc rc rmax val olit rest st1.proj) id val lc rc st st' s s' b b'
            (∃ lw ∈ lv :: rest, ∃ u ∈ (st.db.node rc.id).valsFrom 1, lc.map lw + rc.map u = val) := by
      intro st1 s1 b1 h1 h2 h3 h4 h5 h6 h7
      have hr : DbRef st.db st1.db := h1.ref
      obtain ⟨st2, b2, s2, e2, p2⟩ := ih st1 s1 b1 h3 (hx.ref hr) ((BufOK.ref hci.wf hr).2 h4)
        (by rw [(hr.node rc.id).maxVal]; exact hmax) fun lw hlw => by
          rw [(hr.node lc.id).valsFrom]
          exact hlv lw (by simp [hlw])
      refine ⟨st2, b2, s2, e2, p2.same, h1.trans hci.wf p2.step, h2.trans p2.cert, p2.inv, (BufOK.ref hci.wf hr).1 p2.buf,
        fun h => p2.keepL (h5 h), fun h => p2.keepR (h6 h), ?_⟩
      rintro ⟨lw, hlw, u, hu, he⟩
      rcases List.mem_cons.1 hlw with rfl | hlw
      · obtain ⟨g1, g2, e, g3⟩ := h7 ⟨u, hu, he⟩
        exact ⟨p2.keepL g1, p2.keepR g2, e, p2.cert.defs _ _ g3⟩
      · exact p2.new ⟨lw, hlw, u, by rw [(hr.node rc.id).valsFrom]; exact hu, he⟩
    simp only [sumLoopCert, sumLoop]
    by_cases h : (rc.isPossible (val - lc.map lv) && decide (rc.revMap (val - lc.map lv) ≤ rmax)) = true
    · rw [if_pos h, if_pos h]
      simp only [Bool.and_eq_true, decide_eq_true_eq] at h
      obtain ⟨r, st1, rl, in1, s1, a1, a2, a3, a4, a5, a6, a7, a8, -⟩ := hf st s rc.id (rc.revMap (val - lc.map lv)) b.right
        b.rightInit true hci gr hrb hx.maxL.2 hb.lenR hb.right
      obtain ⟨r', st1', e1, t1, -, y1, z1, -⟩ := hg st.proj rc.id (rc.revMap (val - lc.map lv)) hci.wf hrb
      rw [a2] at e1
      injection e1 with e1
      injection e1 with e1 e1'
      subst e1 e1'
      have r1 : DbRef st.db st1.db := t1.ref
      rw [a1, a2]
      by_cases hm : rc.revMap (val - lc.map lv) ∈ (st.db.node rc.id).valsFrom 1
      · obtain ⟨rlit, rfl, hrv⟩ := y1 hm
        simp only
        obtain ⟨r2, st2, ll, in2, s2, b1, b2, b3, b4, b5, b6, b7, b8, -⟩ := hf st1 s1 lc.id lv b.left
          b.leftInit true a4 (gl.rel r1) hlb (hx.ref r1).maxL.1 (by rw [(r1.node _).nLeaves]; exact hb.lenL)
          (fun h => by rw [leafLits_rel r1 hci.wf]; exact hb.left h)
        obtain ⟨r2', st2', e2, t2, -, y2, -, -⟩ := hg st1.proj lc.id lv a4.wf hlb
        rw [b2] at e2
        injection e2 with e2
        injection e2 with e2 e2'
        subst e2 e2'
        obtain ⟨llit, rfl, hlv'⟩ := y2 (by
          show lv ∈ (st1.db.node lc.id).valsFrom 1
          rw [(r1.node lc.id).valsFrom]; exact hlm)
        have r2 : DbRef st1.db st2.db := t2.ref
        have r12 := r1.trans r2
        have hrv2 := hrv.ref r2
        have hcv : rc.map (rc.revMap (val - lc.map lv)) = val - lc.map lv := by
          rw [pr.map, pr.revMap]
          exact Nat.div_mul_cancel (Nat.dvd_of_mod_eq_zero ((pr.isPossible _).1 h.1))
        have hno : rc.revMapNoLimit (val - lc.map lv) = rc.revMap (val - lc.map lv) := by
          rw [plain_noLimit pr, pr.revMap]
        have hsum : lv * lc.multiplier + rc.revMap (val - lc.map lv) * rc.multiplier = val := by
          rw [pr.map] at hcv
          rw [hcv, pl.map]
          rw [pl.map] at hlt
          omega
        have elv := hlv'.litAt b4.wf
        have eru := hrv2.litAt b4.wf
        have hx2 := hx.ref r12
        obtain ⟨n, st3, s3, c1, c2, c3, c4, c5, c6, c7⟩ := hx2.clause b4 (lv := lv) (u := rc.revMap (val - lc.map lv)) hsum
          (by rw [(r12.node _).maxVal]; exact vals_le_max hci.wf hlm)
          (by rw [(r12.node _).maxVal]; exact vals_le_max hci.wf hm) (fun _ => ⟨_, elv⟩) (fun _ => ⟨_, eru⟩)
          (c := Atomics.cubeImplLit [llit, rlit] olit) (fun b => by
            rw [sat_cubeImplLit, elv, eru]
            simp only [outBit, lbit_one]
            have p1 : 0 < lv := valsFrom_ge hlm
            have p2 : 0 < rc.revMap (val - lc.map lv) := valsFrom_ge hm
            simp [p1, p2])
        have hin1 := a7 (by simp) rfl
        have hin2 := b7 (by simp) rfl
        have hrl : rl = leafLits st2.db rc.id := by rw [leafLits_rel r12 hci.wf]; exact a6 hin1
        have hll : ll = leafLits st2.db lc.id := by rw [leafLits_rel r2 a4.wf]; exact b6 hin2
        rw [b1, b2]
        simp only
        rw [hno, hrl, hll, c1]
        simp only
        have hpj : st3.proj = addClause st2.proj (Atomics.cubeImplLit [llit, rlit] olit) := by
          unfold CSt.proj addClause
          rw [c2, c3, c4]
          simp
        have hst23 : Step st2.proj st3.proj := by
          rw [hpj]
          have hxc := hx2.ctx
          refine step_clause (fun b hb => ?_) fun x hxm => ?_
          · rw [sat_cubeImplLit]
            intro hall
            have g1 := (hlv'.strict b4.wf hb).1 (hall llit (by simp))
            have g2 := (hrv2.strict b4.wf hb).1 (hall rlit (by simp))
            refine (hb id k val olit hxc.out).2 ?_
            have m1 := lc.map_mono g1
            have m2 := rc.map_mono g2
            rw [hcv] at m2
            have hval : TotDb.value st2.proj.db (trueLits b) id =
              conVal st2.db (trueLits b) lc + conVal st2.db (trueLits b) rc := hxc.value _
            rw [hval]
            unfold conVal
            have : lc.map (TotDb.value st2.proj.db (trueLits b) lc.id) = lc.map (TotDb.value st2.db (trueLits b) lc.id) := rfl
            have : rc.map (TotDb.value st2.proj.db (trueLits b) rc.id) = rc.map (TotDb.value st2.db (trueLits b) rc.id) := rfl
            omega
          · rcases mem_cubeImplLit hxm with ⟨y, hy, e⟩ | rfl
            · rw [← e]
              simp only [List.mem_cons, List.not_mem_nil, or_false] at hy
              rcases hy with rfl | rfl
              · exact hlv'.varIn
              · exact hrv2.varIn
            · exact hxc.olit
        rw [← hpj]
        refine next st3 s3 _ ((t1.trans hci.wf t2).trans hci.wf hst23) ((a3.trans b3).trans c5) c6 ?_ (fun _ => rfl) (fun _ => rfl)
          fun _ => ⟨rfl, rfl, c7⟩
        refine (BufOK.ref hci.wf r12).1 ⟨?_, ?_, fun _ => rfl, fun _ => rfl⟩
        · exact (gl.rel r12).leaves_len b4.wf
        · exact (gr.rel r12).leaves_len b4.wf
      · have hr := z1 hm
        subst hr
        simp only
        refine next st1 s1 _ t1 a3 a4 ⟨hb.lenL, a5, hb.left, fun h => a6 (a8 h)⟩ (fun h => h) (fun h => h) ?_
        rintro ⟨u, hu, he⟩
        obtain ⟨-, rfl⟩ := hmv u he
        exact absurd hu hm
    · rw [if_neg h, if_neg h]
      refine next st s b (Step.refl _) (CStep.refl _ _) hci hb (fun h => h) (fun h => h) ?_
      rintro ⟨u, hu, he⟩
      exfalso
      apply h
      obtain ⟨h1, h2⟩ := hmv u he
      simp only [Bool.and_eq_true, decide_eq_true_eq]
      exact ⟨(pr.isPossible _).2 h1, by rw [h2, hmax]; exact vals_le_max hci.wf hu⟩

theorem propLeftCert_spec {f : DefineWCert VM} {g : St VM → Nat → Nat → Option (Option Lit × St VM)} {bound : Nat}
    (hf : CertSpecW f g bound) (hg : DefW g bound) {id k val : Nat} {olit : Lit} {lc rc : NodeCon}
    (hlb : lc.id < bound) (st : CSt VM) (s : State) (b : Bufs) (hci : CI st s) (hx : GCtx st.db id k val olit lc rc)
    (hb : BufOK st.db lc rc b) :
    ∃ st' b' s', propLeftCert f id lc rc val olit st b = some (st', b') ∧
      GPost (propagateVal g lc val olit st.proj) id val lc rc st st' s s' b b'
        (∃ u ∈ (st.db.node lc.id).valsFrom 1, lc.map u = val) := by
  obtain ⟨gl, gr, pl, pr, hnl⟩ := hx.good.children hx.shape
  have hmv : ∀ u, lc.map u = val → val % lc.multiplier = 0 ∧ lc.revMap val = u := fun u hu => by
    rw [pl.map] at hu
    subst hu
    exact ⟨Nat.mul_mod_left _ _, by rw [pl.revMap, Nat.mul_div_cancel _ pl.mult]⟩
  unfold propLeftCert propagateVal
  have hdb : st.proj.db = st.db := rfl
  rw [hdb]
  by_cases h : (lc.isPossible val && decide (lc.revMap val ≤ (st.db.node lc.id).maxVal)) = true
  · rw [if_pos h, if_pos h]
    simp only [Bool.and_eq_true, decide_eq_true_eq] at h
    obtain ⟨r, st1, cl, in1, s1, a1, a2, a3, a4, a5, a6, a7, a8, -⟩ := hf st s lc.id (lc.revMap val) b.left
      b.leftInit true hci gl hlb hx.maxL.1 hb.lenL hb.left
    obtain ⟨r', st1', e1, t1, -, y1, z1, -⟩ := hg st.proj lc.id (lc.revMap val) hci.wf hlb
    rw [a2] at e1
    injection e1 with e1
    injection e1 with e1 e1'
    subst e1 e1'
    have r1 : DbRef st.db st1.db := t1.ref
    rw [a1, a2]
    by_cases hm : lc.revMap val ∈ (st.db.node lc.id).valsFrom 1
    · obtain ⟨clit, rfl, hcv'⟩ := y1 hm
      simp only
      have hin1 := a7 (by simp) rfl
      have hol : (if b.rightInit = true then some b.right else populate st1.db rc.id b.right) = some (leafLits st1.db rc.id) := by
        by_cases hi : b.rightInit = true
        · rw [if_pos hi, hb.right hi, leafLits_rel r1 hci.wf]
        · rw [if_neg hi]
          unfold populate
          simp only
          rw [if_pos]
          rw [(gr.rel r1).leaves_len a4.wf, (r1.node _).nLeaves, hb.lenR]
      rw [hol]
      simp only
      have hcl : cl = leafLits st1.db lc.id := by rw [leafLits_rel r1 hci.wf]; exact a6 hin1
      have hcv : lc.map (lc.revMap val) = val := by
        rw [pl.map, pl.revMap]
        exact Nat.div_mul_cancel (Nat.dvd_of_mod_eq_zero ((pl.isPossible val).1 h.1))
      have hno : lc.revMapNoLimit val = lc.revMap val := by rw [plain_noLimit pl, pl.revMap]
      have elv := hcv'.litAt a4.wf
      have hx1 := hx.ref r1
      have pu : 0 < lc.revMap val := valsFrom_ge hm
      have hsum : lc.revMap val * lc.multiplier + 0 * rc.multiplier = val := by
        rw [pl.map] at hcv
        omega
      obtain ⟨n, st3, s3, c1, c2, c3, c4, c5, c6, c7⟩ := hx1.clause a4 (lv := lc.revMap val) (u := 0) hsum
        (by rw [(r1.node _).maxVal]; exact h.2) (Nat.zero_le _) (fun _ => ⟨_, elv⟩) (fun h => absurd h (Nat.lt_irrefl _))
        (c := Atomics.litImplLit clit olit) (fun b => by
          rw [Am1.sat_litImplLit, elv]
          simp only [outBit, lbit_one]
          simp [pu])
      rw [hno, hcl, c1]
      simp only
      have hpj : st3.proj = addClause st1.proj (Atomics.litImplLit clit olit) := by
        unfold CSt.proj addClause
        rw [c2, c3, c4]
        simp
      have hst23 : Step st1.proj st3.proj := by
        rw [hpj]
        have hxc := hx1.ctx
        refine step_clause (fun b hb => ?_) fun x hxm => ?_
        · rw [Am1.sat_litImplLit, hcv'.strict a4.wf hb]
          intro hle
          refine (hb id k val olit hxc.out).2 ?_
          have hval : TotDb.value st1.proj.db (trueLits b) id =
            conVal st1.db (trueLits b) lc + conVal st1.db (trueLits b) rc := hxc.value _
          rw [hval]
          have h2 : val ≤ conVal st1.db (trueLits b) lc := by
            have := lc.map_mono hle
            rw [hcv] at this
            exact this
          omega
        · simp only [Atomics.litImplLit, List.mem_cons, List.not_mem_nil, or_false] at hxm
          rcases hxm with rfl | rfl
          · rw [Lit.var_neg]; exact hcv'.varIn
          · exact hxc.olit
      refine ⟨st3, _, s3, rfl, by rw [hpj], t1.trans hci.wf hst23, a3.trans c5, c6, ?_, fun _ => rfl, fun _ => rfl,
        fun _ => ⟨rfl, rfl, c7⟩⟩
      refine (BufOK.ref hci.wf r1).1 ⟨?_, ?_, fun _ => rfl, fun _ => rfl⟩
      · exact (gl.rel r1).leaves_len a4.wf
      · exact (gr.rel r1).leaves_len a4.wf
    · have hr := z1 hm
      subst hr
      simp only
      refine ⟨st1, _, s1, rfl, rfl, t1, a3, a4, ⟨a5, hb.lenR, fun h => a6 (a8 h), hb.right⟩, fun h => h, fun h => h, ?_⟩
      rintro ⟨u, hu, he⟩
      obtain ⟨-, rfl⟩ := hmv u he
      exact absurd hu hm
  · rw [if_neg h, if_neg h]
    refine ⟨st, b, s, rfl, rfl, Step.refl _, CStep.refl _ _, hci, hb, fun h => h, fun h => h, ?_⟩
    rintro ⟨u, hu, he⟩
    exfalso
    apply h
    obtain ⟨h1, h2⟩ := hmv u he
    simp only [Bool.and_eq_true, decide_eq_true_eq]
    exact ⟨(pl.isPossible _).2 h1, by rw [h2]; exact vals_le_max hci.wf hu⟩

theorem propRightCert_spec {f : DefineWCert VM} {g : St VM → Nat → Nat → Option (Option Lit × St VM)} {bound : Nat}
    (hf : CertSpecW f g bound) (hg : DefW g bound) {id k val : Nat} {olit : Lit} {lc rc : NodeCon}
    (hrb : rc.id < bound) (st : CSt VM) (s : State) (b : Bufs) (hci : CI st s) (hx : GCtx st.db id k val olit lc rc)
    (hb : BufOK st.db lc rc b) :
    ∃ st' b' s', propRightCert f id lc rc val olit st b = some (st', b') ∧
      GPost (propagateVal g rc val olit st.proj) id val lc rc st st' s s' b b'
        (∃ u ∈ (st.db.node rc.id).valsFrom 1, rc.map u = val) := by
  obtain ⟨gl, gr, pl, pr, hnl⟩ := hx.good.children hx.shape
  have hmv : ∀ u, rc.map u = val → val % rc.multiplier = 0 ∧ rc.revMap val = u := fun u hu => by
    rw [pr.map] at hu
    subst hu
    exact ⟨Nat.mul_mod_left _ _, by rw [pr.revMap, Nat.mul_div_cancel _ pr.mult]⟩
  unfold propRightCert propagateVal
  have hdb : st.proj.db = st.db := rfl
  rw [hdb]
  by_cases h : (rc.isPossible val && decide (rc.revMap val ≤ (st.db.node rc.id).maxVal)) = true
  · rw [if_pos h, if_pos h]
    simp only [Bool.and_eq_true, decide_eq_true_eq] at h
    obtain ⟨r, st1, cl, in1, s1, a1, a2, a3, a4, a5, a6, a7, a8, -⟩ := hf st s rc.id (rc.revMap val) b.right
      b.rightInit true hci gr hrb hx.maxL.2 hb.lenR hb.right
    obtain ⟨r', st1', e1, t1, -, y1, z1, -⟩ := hg st.proj rc.id (rc.revMap val) hci.wf hrb
    rw [a2] at e1
    injection e1 with e1
    injection e1 with e1 e1'
    subst e1 e1'
    have r1 : DbRef st.db st1.db := t1.ref
    rw [a1, a2]
    by_cases hm : rc.revMap val ∈ (st.db.node rc.id).valsFrom 1
    · obtain ⟨clit, rfl, hcv'⟩ := y1 hm
      simp only
      have hin1 := a7 (by simp) rfl
      have hol : (if b.leftInit = true then some b.left else populate st1.db lc.id b.left) = some (leafLits st1.db lc.id) := by
        by_cases hi : b.leftInit = true
        · rw [if_pos hi, hb.left hi, leafLits_rel r1 hci.wf]
        · rw [if_neg hi]
          unfold populate
          simp only
          rw [if_pos]
          rw [(gl.rel r1).leaves_len a4.wf, (r1.node _).nLeaves, hb.lenL]
      rw [hol]
      simp only
      have hcl : cl = leafLits st1.db rc.id := by rw [leafLits_rel r1 hci.wf]; exact a6 hin1
      have hcv : rc.map (rc.revMap val) = val := by
        rw [pr.map, pr.revMap]
        exact Nat.div_mul_cancel (Nat.dvd_of_mod_eq_zero ((pr.isPossible val).1 h.1))
      have hno : rc.revMapNoLimit val = rc.revMap val := by rw [plain_noLimit pr, pr.revMap]
      have elv := hcv'.litAt a4.wf
      have hx1 := hx.ref r1
      have pu : 0 < rc.revMap val := valsFrom_ge hm
      have hsum : 0 * lc.multiplier + rc.revMap val * rc.multiplier = val := by
        rw [pr.map] at hcv
        omega
      obtain ⟨n, st3, s3, c1, c2, c3, c4, c5, c6, c7⟩ := hx1.clause a4 (lv := 0) (u := rc.revMap val) hsum
        (Nat.zero_le _) (by rw [(r1.node _).maxVal]; exact h.2) (fun h => absurd h (Nat.lt_irrefl _)) (fun _ => ⟨_, elv⟩)
        (c := Atomics.litImplLit clit olit) (fun b => by
          rw [Am1.sat_litImplLit, elv]
          simp only [outBit, lbit_one]
          simp [pu])
      rw [hno, hcl, c1]
      simp only
      have hpj : st3.proj = addClause st1.proj (Atomics.litImplLit clit olit) := by
        unfold CSt.proj addClause
        rw [c2, c3, c4]
        simp
      have hst23 : Step st1.proj st3.proj := by
        rw [hpj]
        have hxc := hx1.ctx
        refine step_clause (fun b hb => ?_) fun x hxm => ?_
        · rw [Am1.sat_litImplLit, hcv'.strict a4.wf hb]
          intro hle
          refine (hb id k val olit hxc.out).2 ?_
          have hval : TotDb.value st1.proj.db (trueLits b) id =
            conVal st1.db (trueLits b) lc + conVal st1.db (trueLits b) rc := hxc.value _
          rw [hval]
          have h2 : val ≤ conVal st1.db (trueLits b) rc := by
            have := rc.map_mono hle
            rw [hcv] at this
            exact this
          omega
        · simp only [Atomics.litImplLit, List.mem_cons, List.not_mem_nil, or_false] at hxm
          rcases hxm with rfl | rfl
          · rw [Lit.var_neg]; exact hcv'.varIn
          · exact hxc.olit
      refine ⟨st3, _, s3, rfl, by rw [hpj], t1.trans hci.wf hst23, a3.trans c5, c6, ?_, fun _ => rfl, fun _ => rfl,
        fun _ => ⟨rfl, rfl, c7⟩⟩
      refine (BufOK.ref hci.wf r1).1 ⟨?_, ?_, fun _ => rfl, fun _ => rfl⟩
      · exact (gl.rel r1).leaves_len a4.wf
      · exact (gr.rel r1).leaves_len a4.wf
    · have hr := z1 hm
      subst hr
      simp only
      refine ⟨st1, _, s1, rfl, rfl, t1, a3, a4, ⟨hb.lenL, a5, hb.left, fun h => a6 (a8 h)⟩, fun h => h, fun h => h, ?_⟩
      rintro ⟨u, hu, he⟩
      obtain ⟨-, rfl⟩ := hmv u he
      exact absurd hu hm
  · rw [if_neg h, if_neg h]
    refine ⟨st, b, s, rfl, rfl, Step.refl _, CStep.refl _ _, hci, hb, fun h => h, fun h => h, ?_⟩
    rintro ⟨u, hu, he⟩
    exfalso
    apply h
    obtain ⟨h1, h2⟩ := hmv u he
    simp only [Bool.and_eq_true, decide_eq_true_eq]
    exact ⟨(pr.isPossible _).2 h1, by rw [h2]; exact vals_le_max hci.wf hu⟩

theorem unscale_scale {k : Nat} (hk : 0 < k) (l : List (Lit × Nat)) : unscale k (scale k l) = l := by
  unfold unscale scale
  rw [List.map_map]
  conv => rhs; rw [← List.map_id l]
  apply List.map_congr_left
  intro x _
  simp only [Function.comp, id]
  rw [Nat.mul_div_cancel _ hk]

theorem splitBufs_spec {db : Db} {id k val : Nat} {olit : Lit} {lc rc : NodeCon} (hx : GCtx db id k val olit lc rc)
    {leaves : List (Lit × Nat)} {init : Bool} (hlen : leaves.length = (db.node id).nLeaves)
    (hinit : init = true → leaves = leafLits db id) :
    ∃ b, splitBufs (db.node lc.id).nLeaves lc.multiplier rc.multiplier leaves init = some b ∧ BufOK db lc rc b ∧
      b.leftInit = init ∧ b.rightInit = init := by
  obtain ⟨gl, gr, pl, pr, hnl⟩ := hx.good.children hx.shape
  unfold splitBufs
  rw [if_pos (by omega)]
  by_cases hi : init = true
  · rw [if_pos hi]
    have e : leaves.take (db.node lc.id).nLeaves = scale lc.multiplier (leafLits db lc.id) ∧
        leaves.drop (db.node lc.id).nLeaves = scale rc.multiplier (leafLits db rc.id) := by
      have hl : (scale lc.multiplier (leafLits db lc.id)).length = (db.node lc.id).nLeaves := by
        unfold scale
        rw [List.length_map, gl.leaves_len hx.ctx.wf]
      rw [hinit hi, hx.leaves, ← hl]
      simp
    rw [e.1, e.2, unscale_scale pl.mult, unscale_scale pr.mult]
    exact ⟨_, rfl, ⟨gl.leaves_len hx.ctx.wf, gr.leaves_len hx.ctx.wf, fun _ => rfl, fun _ => rfl⟩, rfl, rfl⟩
  · rw [if_neg hi]
    refine ⟨_, rfl, ⟨?_, ?_, fun h => absurd h hi, fun h => absurd h hi⟩, rfl, rfl⟩
    · simp only [List.length_take]; omega
    · simp only [List.length_drop]; omega

omit [ManageVars VM] in
theorem setOut_outAt {db : Db} {id k v : Nat} {l : Lit} {s : Option Semantics} {t : Semantics}
    (hup : OutUpd db (db.setOut id k (.lit l (some t))) id k v (.lit l s) (.lit l (some t))) {i k' v' : Nat} {x : Lit}
    (ho : OutAt (db.setOut id k (.lit l (some t))) i k' v' x) : OutAt db i k' v' x := by
  rcases hup.outAt ho with h | ⟨rfl, rfl, rfl, h⟩
  · exact h
  · injection h with h
    subst h
    exact ⟨_, hup.old⟩

theorem defineWeightedCert_spec [LawfulVM VM] : ∀ fuel, CertSpecW (VM := VM) (defineWeightedCert fuel)
    (fun st id val => defineWeighted fuel st id val) fuel := by
  intro fuel
  induction fuel with
  | zero => intro st s id val leaves init needed _ _ h; omega
  | succ fuel ih =>
    intro st s id val leaves init needed hci hg hid hmax hlen hinit
    simp only [defineWeightedCert, defineWeighted]
    have hdb : st.proj.db = st.db := rfl
    rw [hdb]
    cases hn : st.db.node id with
    | dummy => exact absurd hn hg.notDummy
    | leaf l =>
      simp only
      have hlv : (if init = true then leaves else leaves.set 0 (l, 1)) = leafLits st.db id := by
        by_cases hi : init = true
        · rw [if_pos hi]; exact hinit hi
        · rw [if_neg hi, leafLits_eq hci.wf, hn]
          rw [hn] at hlen
          have : leaves.length = 1 := hlen
          obtain ⟨a, rfl⟩ := List.length_eq_one_iff.1 this
          rfl
      refine ⟨_, st, _, _, s, rfl, rfl, CStep.refl _ _, hci, ?_, fun _ => hlv, fun _ _ => rfl, fun _ => rfl, fun h h' => ?_⟩
      · rw [hlv, hg.leaves_len hci.wf, hn]
      · exfalso
        by_cases hv : val = 1
        · exact h' l (Or.inl ⟨hn, hv⟩)
        · exact h (by simp [hv])
    | unit lits dp nl lc rc =>
      simp only
      by_cases h : val > lits.length ∨ val = 0
      · rw [if_pos h, if_pos h]
        rw [hn] at hlen
        exact ⟨_, st, leaves, init, s, rfl, rfl, CStep.refl _ _, hci, hlen, hinit, fun hh => absurd rfl hh, fun h => h,
          fun hh => absurd rfl hh⟩
      · rw [if_neg h, if_neg h]
        have hng : (st.db.node id).isGeneral = false := by rw [hn]; rfl
        obtain ⟨l, st1, lv1, in1, s1, a1, a2, a3, a4, a5, a6, a7, a8, a9, a10⟩ :=
          defineCert_spec (id + 1) st s id (val - 1) .if_ (leaves.map (·.1)) init needed hci hg hng
            (by rw [hn]; simp only [Node.len]; omega) (Nat.lt_succ_self _) (by rw [← maxVal_len hng]; exact hmax)
            (by rw [List.length_map]; exact hlen) (fun hh => by rw [hinit hh])
        rw [a1]
        have a2' : define st.proj id (val - 1) .if_ = some (l, st1.proj) := a2
        rw [a2']
        simp only
        rw [show val - 1 + 1 = val by omega] at a10
        have hdef : (∀ l, ¬ HasVal st.db id val l) → ∃ e, st1.defs.lookup (id, val) = some e := by
          intro hnv
          refine a10 fun l' hp => ?_
          have hlt : val - 1 < lits.length := by omega
          have hd := List.getElem?_eq_getElem hlt
          generalize lits[val - 1] = d at hd
          have hpre := precond_unit hn hd .if_
          rw [hp] at hpre
          cases hm : d.missingSemantics .if_ with
          | none =>
            obtain ⟨l, sm, rfl, h1, h2⟩ := missing_none hm
            refine hnv l (Or.inr ⟨val - 1, sm, ?_, h1 rfl⟩)
            rw [hn]
            simp only [Node.outData, hd, Option.map_some]
            rw [show val - 1 + 1 = val by omega]
          | some new =>
            obtain ⟨gl, gr, -⟩ := hg.unit hci.wf hn
            rw [hm] at hpre
            simp only at hpre
            rw [if_neg (fun h => h.elim gl.notDummy gr.notDummy)] at hpre
            cases hpre
        by_cases hc : (needed && !init) = true
        · rw [if_pos hc]
          have hnd : needed = true := by cases needed <;> simp_all
          have e := a7 (a8 hnd)
          refine ⟨_, st1, _, _, s1, rfl, rfl, a4, a5, ?_, fun _ => ?_, fun _ _ => rfl, fun _ => rfl, fun _ => hdef⟩
          · rw [e, hg.leaves_unit hci.wf hng, hg.leaves_len hci.wf, hn]
          · rw [e, hg.leaves_unit hci.wf hng]
        · rw [if_neg hc]
          refine ⟨_, st1, leaves, init, s1, rfl, rfl, a4, a5, ?_, hinit, fun _ hnd => ?_, fun h => h, fun _ => hdef⟩
          · rw [← hn]; exact hlen
          · cases needed <;> cases init <;> simp_all
    | general lits dp nl m lc rc =>
      simp only
      have hlt : id < st.db.nodes.length := Db.node_lt (by rw [hn]; intro h; cases h)
      have hgv := general_vals hci.wf hn val
      rw [hn] at hgv
      cases hk : valIdx lits val with
      | none =>
        rw [hn] at hlen
        exact ⟨_, st, leaves, init, s, rfl, rfl, CStep.refl _ _, hci, hlen, hinit, fun hh => absurd rfl hh, fun h => h,
          fun hh => absurd rfl hh⟩
      | some k =>
        simp only
        obtain ⟨d, hd⟩ := valIdx_some hk
        have hmem : val ∈ (Node.general lits dp nl m lc rc).valsFrom 1 :=
          hgv.2 (List.mem_map.2 ⟨_, List.mem_of_getElem? hd, rfl⟩)
        have hpos : 0 < val := valsFrom_ge hmem
        have hout : (st.db.node id).outData k = some (val, d) := by rw [hn]; exact hd
        rw [outLit_of_outData hout]
        simp only
        by_cases hif : d.hasIf = true
        · obtain ⟨l, sm, rfl⟩ : ∃ l s, d = .lit l (some s) := by
            match d, hif with
            | .lit l (some s), _ => exact ⟨l, s, rfl⟩
          simp only [hif, LitData.lit?]
          have hhv : HasVal st.db id val l := Or.inr ⟨k, sm, hout, hif⟩
          by_cases hc : (needed && !init) = true
          · rw [if_pos hc]
            unfold populate
            simp only
            rw [if_pos (by rw [hg.leaves_len hci.wf, hlen])]
            refine ⟨_, st, _, _, s, rfl, rfl, CStep.refl _ _, hci, ?_, fun _ => rfl, fun _ _ => rfl, fun _ => rfl,
              fun _ h => absurd hhv (h l)⟩
            rw [hg.leaves_len hci.wf, hn]
          · rw [if_neg hc]
            refine ⟨_, st, _, _, s, rfl, rfl, CStep.refl _ _, hci, ?_, hinit, fun _ hnd => ?_, fun h => h,
              fun _ h => absurd hhv (h l)⟩
            · rw [hlen, hn]
            · cases needed <;> cases init <;> simp_all
        · have hif : d.hasIf = false := by simpa using hif
          simp only [hif]
          have hok := hci.wf.nodes id _ (Db.getElem?_node hlt)
          rw [hn] at hok
          obtain ⟨o1, o2, o3, o4, o5, o6, o7⟩ := hok
          -- the output literal
          have hbase : (⟨st.db, st.vm, []⟩ : St VM).db.WF := hci.wf
          obtain ⟨olit, sm, st1', e1, t1, d1, -, n1, -⟩ := weightedOlit_spec (st := st.proj) hci.wf hout
          have hcert : weightedOlitCert st id k = some (olit, { st with db := st1'.db, vm := st1'.vm }) ∧
              st1'.cls = st.proj.cls := by
            unfold weightedOlitCert
            unfold weightedOlit at e1 ⊢
            rw [hdb] at e1
            simp only
            cases hu : st.db.outLit id k with
            | none => rw [hu] at e1; cases e1
            | some d' =>
              rw [hu] at e1
              cases d' with
              | none =>
                simp only at e1 ⊢
                injection e1 with e1
                injection e1 with h1 h2
                subst h1 h2
                exact ⟨rfl, rfl⟩
              | lit x sm =>
                simp only at e1 ⊢
                injection e1 with e1
                injection e1 with h1 h2
                subst h1 h2
                exact ⟨rfl, rfl⟩
          rw [hcert.1, e1]
          simp only
          generalize hst1 : ({ st with db := st1'.db, vm := st1'.vm } : CSt VM) = st1
          have hpj : st1.proj = st1' := by
            rw [← hst1]
            unfold CSt.proj
            simp only
            show (⟨st1'.db, st1'.vm, st.proj.cls⟩ : St VM) = st1'
            rw [← hcert.2]
          have hdb1 : st1.db = st1'.db := by rw [← hst1]
          have r1 : DbRef st.db st1.db := by rw [hdb1]; exact t1.ref
          have hci1 : CI st1 s := hci.step t1 rfl rfl (by rw [← hst1]) (by rw [← hst1]) (by rw [← hst1]) (by rw [← hst1])
          have hcs1 : CStep st st1 s s := CStep.same (by rw [← hst1]) (by rw [← hst1]) (by rw [← hst1]) r1 s
          rw [← hpj] at t1 ⊢
          rw [← hdb1] at d1
          simp only [plain_true o3, plain_true o4, Bool.and_self, if_true]
          have hsh : (st1.db.node id).shape = .inner lc rc := by rw [r1.shape, hn]; rfl
          have hx1 : GCtx st1.db id k val olit lc rc :=
            ⟨⟨hci1.wf, r1.plain o3, r1.plain o4, fun T => by rw [value_eq hci1.wf, hsh], ⟨sm, d1⟩⟩, hsh, hg.rel r1,
              by rw [(r1.node id).maxVal]; exact hmax, hpos, by
                rw [(r1.node id).maxVal]
                exact vals_le_max hci.wf (by rw [hn]; exact hmem)⟩
          have hl := hx1.ctx.left
          have hsv : ∀ lv, lv ∈ sumVals st1.db lc val ↔ lv ∈ (st1.db.node lc.id).valsFrom 1 ∧ lc.map lv < val := by
            intro lv
            unfold sumVals
            rw [hl.offset, Nat.zero_add]
            by_cases h : lc.map 1 < val
            · rw [if_pos h, mem_valsRange (Nat.le_refl _), hl.roundUp]
              constructor
              · rintro ⟨g1, -, g2⟩; exact ⟨g1, g2⟩
              · rintro ⟨g1, g2⟩; exact ⟨g1, valsFrom_ge g1, g2⟩
            · rw [if_neg h]
              simp only [List.not_mem_nil, false_iff, not_and]
              intro g1 g2
              have := lc.map_mono (valsFrom_ge g1)
              omega
          obtain ⟨b0, eb, hb0, i1, i2⟩ := splitBufs_spec hx1 (leaves := leaves) (init := init)
            (by rw [(r1.node id).nLeaves]; exact hlen) (fun hh => by rw [leafLits_rel r1 hci.wf]; exact hinit hh)
          have hp1 : st1.proj.db = st1.db := rfl
          rw [hp1, eb]
          simp only
          have hdf : DefW (fun (st : St VM) i v => defineWeighted fuel st i v) fuel := defineWeighted_spec fuel
          obtain ⟨st2, b2, s2, e2, p2⟩ := sumLoopCert_spec ih hdf (by omega) (by omega) (sumVals st1.db lc val) st1 s b0 hci1 hx1
            hb0 rfl fun lv h => (hsv lv).1 h
          rw [e2]
          simp only
          have q2 := p2.same
          rw [q2]
          simp only
          have r2 : DbRef st1.db st2.db := p2.step.ref
          have hx2 := hx1.ref r2
          obtain ⟨st3, b3, s3, e3, p3⟩ := propLeftCert_spec ih hdf (by omega) st2 s2 b2 p2.inv hx2
            ((BufOK.ref hci1.wf r2).2 p2.buf)
          rw [e3]
          simp only
          have q3 := p3.same
          rw [q3]
          simp only
          have r3 : DbRef st2.db st3.db := p3.step.ref
          have hx3 := hx2.ref r3
          obtain ⟨st4, b4, s4, e4, p4⟩ := propRightCert_spec ih hdf (by omega) st3 s3 b3 p3.inv hx3
            ((BufOK.ref p2.inv.wf r3).2 p3.buf)
          rw [e4]
          simp only
          have q4 := p4.same
          rw [q4]
          simp only
          have r4 : DbRef st3.db st4.db := p4.step.ref
          have r14 : DbRef st1.db st4.db := (r2.trans r3).trans r4
          have hx4 := hx3.ref r4
          obtain ⟨sm4, d4⟩ := hx4.ctx.out
          have hp4 : st4.proj.db = st4.db := rfl
          rw [hp4, outLit_of_outData d4]
          simp only
          obtain ⟨t, ht, tIf, tOnly⟩ := addSemantics_lit olit sm4 .if_
          have hup := setOut_upd d4 (LitRef.add olit sm4 .if_)
          rw [ht] at hup ⊢
          have hall : b4.leftInit = true ∧ b4.rightInit = true ∧ ∃ e, st4.defs.lookup (id, val) = some e := by
            have hm' := (o6 val).1 (List.mem_map.2 ⟨_, List.mem_of_getElem? hd, rfl⟩)
            have cv : ∀ (c : NodeCon), PlainCon st.db c → ∀ v, v ∈ conVals st.db c →
                ∃ u ∈ (st.db.node c.id).valsFrom 1, c.map u = v := fun c hc v hv => by
              unfold conVals at hv
              rw [hc.limit, hc.offset] at hv
              simpa using hv
            rcases hm' with h | h | ⟨x, hx, y, hy, e⟩
            · obtain ⟨u, hu, hv⟩ := cv lc o3 val h
              obtain ⟨g1, g2, e, g3⟩ := p3.new ⟨u, by rw [((r1.trans r2).node lc.id).valsFrom]; exact hu, hv⟩
              exact ⟨p4.keepL g1, p4.keepR g2, e, p4.cert.defs _ _ g3⟩
            · obtain ⟨u, hu, hv⟩ := cv rc o4 val h
              exact p4.new ⟨u, by rw [(((r1.trans r2).trans r3).node rc.id).valsFrom]; exact hu, hv⟩
            · obtain ⟨u, hu, hv⟩ := cv lc o3 x hx
              obtain ⟨w, hw, hv'⟩ := cv rc o4 y hy
              have hwp : 0 < rc.map w := by
                rw [o4.map]; exact Nat.mul_pos (valsFrom_ge hw) o4.mult
              obtain ⟨g1, g2, e, g3⟩ := p2.new ⟨u, (hsv u).2 ⟨by rw [(r1.node lc.id).valsFrom]; exact hu, by omega⟩, w,
                by rw [(r1.node rc.id).valsFrom]; exact hw, by omega⟩
              exact ⟨p4.keepL (p3.keepL g1), p4.keepR (p3.keepR g2), e, p4.cert.defs _ _ (p3.cert.defs _ _ g3)⟩
          obtain ⟨hL, hR, hD⟩ := hall
          have hbuf : BufOK st1.db lc rc b4 :=
            (BufOK.ref hci1.wf r2).1 ((BufOK.ref p2.inv.wf r3).1 p4.buf)
          have hlv : scale lc.multiplier b4.left ++ scale rc.multiplier b4.right = leafLits st.db id := by
            rw [hbuf.left hL, hbuf.right hR, ← hx1.leaves, leafLits_rel r1 hci.wf]
          have r5 : DbRef st4.db (st4.db.setOut id k (.lit olit (some t))) := hup.ref
          refine ⟨some olit, { st4 with db := st4.db.setOut id k (.lit olit (some t)) }, _, _, s4, rfl, rfl,
            (((hcs1.trans p2.cert).trans p3.cert).trans p4.cert).trans
              (CStep.same (st := st4) (st' := { st4 with db := st4.db.setOut id k (.lit olit (some t)) }) rfl rfl rfl r5 s4),
            p4.inv.ref (st' := { st4 with db := st4.db.setOut id k (.lit olit (some t)) }) r5
              (fun i k' v' x ho => setOut_outAt hup ho) rfl rfl rfl, ?_, fun _ => hlv, fun _ _ => ?_, fun _ => ?_, fun _ _ => hD⟩
          · rw [hlv, hg.leaves_len hci.wf, hn]
          · rw [hL, hR]; rfl
          · rw [hL, hR]; rfl

omit [ManageVars VM] in
/-- Defining one value does not encode another one. -/
theorem HasVal.adds {db db' : Db} {id v w : Nat} (hr : DbRef db db')
    (ha : Adds db db' id (fun k => ∃ d, (db.node id).outData k = some (v, d)) .if_) (hne : w ≠ v)
    (hn : ∀ l, ¬ HasVal db id w l) : ∀ l, ¬ HasVal db' id w l := by
  rintro l (⟨h1, rfl⟩ | ⟨k, s, h1, h2⟩)
  · have hrel := hr.node id
    rw [h1] at hrel
    cases hx : db.node id with
    | leaf x => exact hn x (Or.inl ⟨hx, rfl⟩)
    | dummy => rw [hx] at hrel; cases hrel
    | unit => rw [hx] at hrel; cases hrel
    | general => rw [hx] at hrel; cases hrel
  · obtain ⟨d, h3, -⟩ := (hr.node id).outData_bwd h1
    rcases ha.if_ k ⟨_, _, h1, h2⟩ with ⟨v', d', h4, h5⟩ | ⟨⟨d', h4⟩, -⟩
    · rw [h3] at h4
      injection h4 with h4
      injection h4 with h4 h6
      subst h4 h6
      match d, h3, h5 with
      | .lit x (some s'), h3, h5 => exact hn x (Or.inr ⟨k, s', h3, h5⟩)
    · rw [h3] at h4
      injection h4 with h4
      injection h4 with h4
      exact hne h4

/-- The loop over the values does the same as without certificates, and stores the definitions of values that were not
defined before. -/
theorem defineValsCert_spec [LawfulVM VM] (id : Nat) : ∀ (vals : List Nat) (st : CSt VM) (s : State)
    (leaves : List (Lit × Nat)) (init : Bool), CI st s → Good st.db id → (st.db.node id).maxVal < isizeMax →
    leaves.length = (st.db.node id).nLeaves → (init = true → leaves = leafLits st.db id) →
    (∀ v ∈ vals, v ∈ (st.db.node id).valsFrom 1) →
    ∃ st' s', defineValsCert id vals st leaves init = some st' ∧ defineVals st.proj id vals = some st'.proj ∧
      Step st.proj st'.proj ∧ CStep st st' s s' ∧ CI st' s' ∧
      (vals.Nodup → ∀ v ∈ vals, (∀ l, ¬ HasVal st.db id v l) → ∃ e, st'.defs.lookup (id, v) = some e) := by
  intro vals
  induction vals with
  | nil =>
    intro st s leaves init hci _ _ _ _ _
    exact ⟨st, s, rfl, rfl, Step.refl _, CStep.refl _ _, hci, fun _ v hv => by cases hv⟩
  | cons v vals ih =>
    intro st s leaves init hci hg hmax hlen hinit hv
    obtain ⟨r, st1, lv1, in1, s1, a1, a2, a3, a4, a5, a6, -, -, a7⟩ :=
      defineWeightedCert_spec (id + 1) st s id v leaves init false hci hg (Nat.lt_succ_self _) hmax hlen hinit
    obtain ⟨r', st1', e1, t1, -, y1, -, y2⟩ := defineWeighted_spec (id + 1) st.proj id v hci.wf (Nat.lt_succ_self _)
    have a2' : defineWeighted (id + 1) st.proj id v = some (r, st1.proj) := a2
    have e1' : defineWeighted (id + 1) st.proj id v = some (r', st1') := e1
    rw [a2'] at e1'
    injection e1' with e1'
    injection e1' with e2 e3
    subst e2 e3
    obtain ⟨l, rfl, hl⟩ := y1 (hv v (by simp))
    have hr : DbRef st.db st1.db := t1.ref
    obtain ⟨st2, s2, b1, b2, b3, b4, b5, b6⟩ := ih st1 s1 lv1 in1 a4 (hg.rel hr)
      (by rw [(hr.node id).maxVal]; exact hmax) (by rw [(hr.node id).nLeaves]; exact a5)
      (fun h => by rw [leafLits_rel hr hci.wf]; exact a6 h)
      (fun w hw => by rw [(hr.node id).valsFrom]; exact hv w (by simp [hw]))
    refine ⟨st2, s2, ?_, ?_, t1.trans hci.wf b3, a3.trans b4, b5, fun hnd w hw hno => ?_⟩
    · simp only [defineValsCert, a1]
      exact b1
    · simp only [defineVals, a2']
      exact b2
    · obtain ⟨hnd1, hnd2⟩ := List.nodup_cons.1 hnd
      rcases List.mem_cons.1 hw with rfl | hw'
      · obtain ⟨e, he⟩ := a7 (by simp) hno
        exact ⟨e, b4.defs _ _ he⟩
      · refine b6 hnd2 w hw' (HasVal.adds hr y2 ?_ hno)
        rintro rfl
        exact hnd1 hw'

end
end TotDb
end RustSat
