import Verif.Lemmas.CertSem
/-
The certified encoding of one output of a node: the same clauses as without certificates, all of them derived.
-/
namespace RustSat
namespace TotDb
open Pigeons VeriPb

theorem maxVal_len {n : Node} (h : n.isGeneral = false) : n.maxVal = n.len := by
  cases n <;> first | rfl | cases h

theorem plain_conIdx {db : Db} {c : NodeCon} (h : PlainCon db c) (hm : c.multiplier = 1) (i : Nat) : conIdx i c = i := by
  unfold conIdx
  rw [h.revMap, hm]
  omega

theorem plain_revMapNoLimit {db : Db} {c : NodeCon} (h : PlainCon db c) (hm : c.multiplier = 1) (v : Nat) :
    c.revMapNoLimit v = v := by
  unfold NodeCon.revMapNoLimit
  rw [hm, h.divisor, h.offset]
  simp

theorem plain_conLen {db : Db} {c : NodeCon} (h : PlainCon db c) : db.conLen c = (db.node c.id).len := by
  unfold Db.conLen
  rw [h.limit, h.offset, h.divisor]
  simp

theorem plain_conVal {db : Db} {c : NodeCon} (h : PlainCon db c) (hm : c.multiplier = 1) (T : Lit → Bool) :
    conVal db T c = value db T c.id := by
  unfold conVal
  rw [h.map, hm, Nat.mul_one]

theorem plain_true {db : Db} {c : NodeCon} (h : PlainCon db c) : c.plain = true := by
  unfold NodeCon.plain
  rw [h.offset, h.limit]
  rfl

/-- A node is a leaf or has at least two outputs. -/
theorem Good.kind {db : Db} (hw : db.WF) {id : Nat} (h : Good db id) (hg : (db.node id).isGeneral = false) :
    (∃ l, db.node id = .leaf l) ∨ ((∀ l, db.node id ≠ .leaf l) ∧ 2 ≤ (db.node id).maxVal) := by
  cases hn : db.node id with
  | dummy => exact absurd hn h.notDummy
  | leaf l => exact Or.inl ⟨l, rfl⟩
  | general => rw [hn] at hg; cases hg
  | unit lits dp nl lc rc =>
    obtain ⟨gl, gr, -, -, -, -, nl1, nl2, -, hlen, -⟩ := h.unit hw hn
    have := gl.len_pos hw nl1
    have := gr.len_pos hw nl2
    refine Or.inr ⟨(fun l hh => nomatch hh), ?_⟩
    show 2 ≤ lits.length
    omega

theorem Good.semArg {db : Db} (hw : db.WF) {id : Nat} (h : Good db id) (hg : (db.node id).isGeneral = false)
    (hmax : (db.node id).len < isizeMax) {value : Nat} {ty : SemDefType} (hr : value ≤ (db.node id).len + 1)
    (h1 : ty = .if_ → 0 < value) (h2 : ty = .onlyIf → value ≤ (db.node id).len)
    (hl : 0 < value → value ≤ (db.node id).len → ∃ l, db.litAt id value = some l) :
    SemArg db id value ty (ones ((leafLits db id).map (·.1))) := by
  have hm := maxVal_len hg
  refine ⟨h.kind hw hg, ?_, by rw [hm]; exact hmax, by rw [hm]; exact hr, h1, by rw [hm]; exact h2, by rw [hm]; exact hl⟩
  rw [h.leaves_unit hw hg]
  exact h.leafOK hw

theorem HasLit.litAt {db : Db} {id idx : Nat} {sem : Semantics} {l : Lit} (h : HasLit db id idx sem l) :
    db.litAt id (idx + 1) = some l := by
  unfold Db.litAt
  rcases h with ⟨h, rfl⟩ | ⟨s, hg, h, -⟩
  · rw [h]; rfl
  · cases hn : db.node id with
    | dummy => rw [hn] at h; cases h
    | leaf l => rw [hn] at h; cases h
    | general => rw [hn] at hg; cases hg
    | unit lits dp nl lc rc =>
      rw [hn] at h
      simp only [Node.outData] at h
      simp only
      rw [if_neg (by omega)]
      simp only [Nat.add_sub_cancel]
      cases hx : lits[idx]? with
      | none => rw [hx] at h; cases h
      | some d =>
        rw [hx] at h
        injection h with h
        injection h with _ h
        subst h
        rfl

theorem certOlit_litAt {db : Db} {id idx : Nat} (hg : (db.node id).isGeneral = false) (hi : idx < (db.node id).len) :
    certOlit db id idx = db.litAt id (idx + 1) := by
  unfold certOlit Db.litAt
  cases hn : db.node id with
  | dummy => rfl
  | leaf l =>
    rw [hn] at hi
    have : idx = 0 := by
      have : idx < 1 := hi
      omega
    subst this
    rfl
  | general => rw [hn] at hg; cases hg
  | unit => simp

theorem certOlit_slice {db : Db} {id idx : Nat} {lits : List LitData} (hs : litSlice db id = some lits)
    (hi : idx < (db.node id).len) : certOlit db id idx = sliceLit lits idx := by
  unfold certOlit
  unfold litSlice at hs
  cases hn : db.node id with
  | dummy => rw [hn] at hs; cases hs
  | leaf l =>
    rw [hn] at hi hs
    have : idx = 0 := by
      have : idx < 1 := hi
      omega
    subst this
    injection hs with hs
    subst hs
    rfl
  | general => rw [hn] at hs; cases hs
  | unit =>
    rw [hn] at hs
    injection hs with hs
    subst hs
    rfl

/-- The setting in which the clauses of one output are derived. -/
structure CCtx (db : Db) (id idx : Nat) (olit : Lit) (lc rc : NodeCon) : Prop where
  wf : db.WF
  node : ∃ lits dp nl, db.node id = .unit lits dp nl lc rc
  good : Good db id
  lt : idx < (db.node id).len
  out : db.litAt id (idx + 1) = some olit
  max : (db.node id).len < isizeMax

namespace CCtx
variable {db : Db} {id idx : Nat} {olit : Lit} {lc rc : NodeCon}

theorem facts (h : CCtx db id idx olit lc rc) :
    Good db lc.id ∧ Good db rc.id ∧ PlainCon db lc ∧ PlainCon db rc ∧ lc.multiplier = 1 ∧ rc.multiplier = 1 ∧
      (db.node lc.id).isGeneral = false ∧ (db.node rc.id).isGeneral = false ∧
      (db.node id).nLeaves = (db.node lc.id).nLeaves + (db.node rc.id).nLeaves ∧
      (db.node id).len = (db.node lc.id).len + (db.node rc.id).len ∧ lc.id < id ∧ rc.id < id := by
  obtain ⟨lits, dp, nl, hn⟩ := h.node
  have := h.good.unit h.wf hn
  rw [hn]
  exact this

theorem notGeneral (h : CCtx db id idx olit lc rc) : (db.node id).isGeneral = false := by
  obtain ⟨lits, dp, nl, hn⟩ := h.node
  rw [hn]; rfl

theorem value (h : CCtx db id idx olit lc rc) (T : Lit → Bool) :
    TotDb.value db T id = TotDb.value db T lc.id + TotDb.value db T rc.id := by
  obtain ⟨lits, dp, nl, hn⟩ := h.node
  obtain ⟨-, -, pl, pr, ml, mr, -⟩ := h.facts
  rw [value_unit h.wf hn, plain_conVal pl ml, plain_conVal pr mr]

theorem leaves (h : CCtx db id idx olit lc rc) :
    (leafLits db id).map (·.1) = (leafLits db lc.id).map (·.1) ++ (leafLits db rc.id).map (·.1) := by
  obtain ⟨lits, dp, nl, hn⟩ := h.node
  exact h.good.leaves_append h.wf hn

theorem thisArg (h : CCtx db id idx olit lc rc) (ty : SemDefType) :
    SemArg db id (idx + 1) ty (ones ((leafLits db lc.id).map (·.1) ++ (leafLits db rc.id).map (·.1))) := by
  rw [← h.leaves]
  have := h.lt
  exact h.good.semArg h.wf h.notGeneral h.max (by omega) (fun _ => by omega) (fun _ => by omega) fun _ _ => ⟨_, h.out⟩

end CCtx

/-- The literal of an output, if it has to exist. -/
theorem outBit_opt (b : Asg) (o : Option Lit) : outBit b o = 0 ∨ outBit b o = 1 := by
  cases o with
  | none => exact Or.inl rfl
  | some l => exact lbit_cases b l

theorem if_arith {W k l r : Nat} {o ol or : Int} (hk : l + r = k) (h0 : 0 < k) (hW : k ≤ W) (ho : o = 0 ∨ o = 1)
    (hol : ol = 0 ∨ ol = 1) (hor : or = 0 ∨ or = 1) (x y z : Int) (hx : x = y + z) :
    0 ≤ ((W - x) - (W - (k : Nat) + 1) * (1 - o)) + (y - l * ol) + (z - r * or) ↔
      ((0 < l → ol = 1) → (0 < r → or = 1) → o = 1) := by
  subst hx
  subst hk
  rcases ho with rfl | rfl <;> rcases hol with rfl | rfl <;> rcases hor with rfl | rfl <;> simp <;> omega

theorem only_arith {Wl Wr l r k : Nat} {o ol or : Int} (hk : l + r + 1 = k) (hl : l ≤ Wl) (hr : r ≤ Wr)
    (hW : k ≤ Wl + Wr) (ho : o = 0 ∨ o = 1)
    (hol : ol = 0 ∨ ol = 1) (hor : or = 0 ∨ or = 1) (x y z : Int) (hx : x = y + z) :
    0 ≤ (x - k * o) + ((Wl - y) - (Wl - ((l + 1 : Nat) : Int) + 1) * (1 - ol)) +
        ((Wr - z) - (Wr - ((r + 1 : Nat) : Int) + 1) * (1 - or)) ↔
      ((l < Wl → ol = 0) → (r < Wr → or = 0) → o = 0) := by
  subst hx
  subst hk
  push_cast
  rcases ho with rfl | rfl <;> rcases hol with rfl | rfl <;> rcases hor with rfl | rfl <;> simp <;> omega

/-- The literals of an "if" clause in terms of the outputs of the children. -/
theorem lhsIf_eq {db : Db} {id idx : Nat} {olit : Lit} {p : Pre} (h : CCtx db id idx olit p.lcon p.rcon) {lval : Nat}
    (h1 : lval ≤ (db.node p.lcon.id).len) (h2 : idx + 1 - lval ≤ (db.node p.rcon.id).len)
    (hl : 0 < lval → ∃ l, db.litAt p.lcon.id lval = some l)
    (hr : 0 < idx + 1 - lval → ∃ l, db.litAt p.rcon.id (idx + 1 - lval) = some l) :
    ∃ lhs, lhsIf db p idx lval = some lhs ∧
      (∀ b, (∀ x ∈ lhs, x.holds b = true) ↔ ((0 < lval → outBit b (db.litAt p.lcon.id lval) = 1) ∧
        (0 < idx + 1 - lval → outBit b (db.litAt p.rcon.id (idx + 1 - lval)) = 1))) ∧
      ∀ llits rlits, litSlice db p.lcon.id = some llits → litSlice db p.rcon.id = some rlits →
        ifClause p llits rlits idx olit lval = some (Atomics.cubeImplLit lhs olit) := by
  obtain ⟨gl, gr, pl, pr, ml, mr, ngl, ngr, -⟩ := h.facts
  have key : ∀ (c : NodeCon) (v : Nat), PlainCon db c → c.multiplier = 1 → (db.node c.id).isGeneral = false →
      v ≤ (db.node c.id).len → (0 < v → ∃ l, db.litAt c.id v = some l) →
      ∃ a, (if v > 0 then (certOlit db c.id (conIdx (v - 1) c)).map fun l => [l] else some []) = some a ∧
        (∀ b, (∀ x ∈ a, x.holds b = true) ↔ (0 < v → outBit b (db.litAt c.id v) = 1)) ∧
        ∀ lits, litSlice db c.id = some lits →
          (if v > 0 then (sliceLit lits (conIdx (v - 1) c)).map fun l => [l] else some []) = some a := by
    intro c v hp hm hg hv hl
    rw [plain_conIdx hp hm]
    by_cases h0 : v > 0
    · obtain ⟨l, hl⟩ := hl h0
      rw [if_pos h0]
      have e := certOlit_litAt hg (idx := v - 1) (by omega)
      rw [Nat.sub_add_cancel h0, hl] at e
      refine ⟨[l], by rw [e]; rfl, fun b => ?_, fun lits hs => ?_⟩
      · rw [hl]
        simp [outBit, lbit_one, h0]
      · rw [if_pos h0, ← certOlit_slice hs (by omega), e]; rfl
    · rw [if_neg h0]
      exact ⟨[], rfl, fun b => by simp; omega, fun _ _ => by rw [if_neg h0]⟩
  obtain ⟨a, a1, a2, a3⟩ := key p.lcon lval pl ml ngl h1 hl
  obtain ⟨c, c1, c2, c3⟩ := key p.rcon (idx + 1 - lval) pr mr ngr h2 hr
  refine ⟨a ++ c, ?_, fun b => ?_, fun llits rlits e1 e2 => ?_⟩
  · unfold lhsIf
    simp only
    rw [a1, c1]
  · rw [← a2, ← c2]
    simp only [List.mem_append, or_imp, forall_and]
  · unfold ifClause
    simp only
    rw [a3 _ e1, c3 _ e2]

theorem lhsOnlyIf_eq {db : Db} {id idx : Nat} {olit : Lit} {p : Pre} (h : CCtx db id idx olit p.lcon p.rcon) {lval : Nat}
    (hl : lval < (db.node p.lcon.id).len → ∃ l, db.litAt p.lcon.id (lval + 1) = some l)
    (hr : idx - lval < (db.node p.rcon.id).len → ∃ l, db.litAt p.rcon.id (idx - lval + 1) = some l) :
    ∃ lhs, lhsOnlyIf db p idx lval = some lhs ∧
      (∀ b, (∀ x ∈ lhs, x.holds b = true) ↔
        ((lval < (db.node p.lcon.id).len → outBit b (db.litAt p.lcon.id (lval + 1)) = 0) ∧
        (idx - lval < (db.node p.rcon.id).len → outBit b (db.litAt p.rcon.id (idx - lval + 1)) = 0))) ∧
      ∀ llits rlits, litSlice db p.lcon.id = some llits → litSlice db p.rcon.id = some rlits →
        onlyIfClause db p llits rlits idx olit lval = some (Atomics.cubeImplLit lhs olit.neg) := by
  obtain ⟨gl, gr, pl, pr, ml, mr, ngl, ngr, -⟩ := h.facts
  have key : ∀ (c : NodeCon) (v : Nat), PlainCon db c → c.multiplier = 1 → (db.node c.id).isGeneral = false →
      (v < (db.node c.id).len → ∃ l, db.litAt c.id (v + 1) = some l) →
      ∃ a, (if v < db.conLen c then (certOlit db c.id (conIdx v c)).map fun l => [l.neg] else some []) = some a ∧
        (∀ b, (∀ x ∈ a, x.holds b = true) ↔ (v < (db.node c.id).len → outBit b (db.litAt c.id (v + 1)) = 0)) ∧
        ∀ lits, litSlice db c.id = some lits →
          (if v < db.conLen c then (sliceLit lits (conIdx v c)).map fun l => [l.neg] else some []) = some a := by
    intro c v hp hm hg hl
    rw [plain_conIdx hp hm, plain_conLen hp]
    by_cases h0 : v < (db.node c.id).len
    · obtain ⟨l, hl⟩ := hl h0
      rw [if_pos h0]
      have e := certOlit_litAt hg h0
      rw [hl] at e
      refine ⟨[l.neg], by rw [e]; rfl, fun b => ?_, fun lits hs => ?_⟩
      · rw [hl]
        simp only [List.mem_cons, List.not_mem_nil, or_false, forall_eq, outBit, h0, true_implies]
        rw [← lbit_one, lbit_neg]
        constructor <;> intro <;> omega
      · rw [if_pos h0, ← certOlit_slice hs h0, e]; rfl
    · rw [if_neg h0]
      exact ⟨[], rfl, fun b => by simp; omega, fun _ _ => by rw [if_neg h0]⟩
  obtain ⟨a, a1, a2, a3⟩ := key p.lcon lval pl ml ngl hl
  obtain ⟨c, c1, c2, c3⟩ := key p.rcon (idx - lval) pr mr ngr hr
  refine ⟨a ++ c, ?_, fun b => ?_, fun llits rlits e1 e2 => ?_⟩
  · unfold lhsOnlyIf
    simp only
    rw [a1, c1]
  · rw [← a2, ← c2]
    simp only [List.mem_append, or_imp, forall_and]
  · unfold onlyIfClause
    simp only
    rw [a3 _ e1, c3 _ e2]

variable {VM : Type} [ManageVars VM]

/-- The loop for the "if" direction. -/
theorem certIfs_spec {id idx : Nat} {olit : Lit} {p : Pre} : ∀ (vals : List Nat) (st : CSt VM) (s : State), CI st s →
    CCtx st.db id idx olit p.lcon p.rcon →
    (∀ v ∈ vals, v ≤ (st.db.node p.lcon.id).len ∧ v ≤ idx + 1 ∧ idx + 1 - v ≤ (st.db.node p.rcon.id).len ∧
      (0 < v → ∃ l, st.db.litAt p.lcon.id v = some l) ∧
      (0 < idx + 1 - v → ∃ l, st.db.litAt p.rcon.id (idx + 1 - v) = some l)) →
    ∀ llits rlits cs, litSlice st.db p.lcon.id = some llits → litSlice st.db p.rcon.id = some rlits →
    collect (ifClause p llits rlits idx olit) vals = some cs →
    ∃ st' s', certIfs id idx olit p ((leafLits st.db p.lcon.id).map (·.1)) ((leafLits st.db p.rcon.id).map (·.1)) vals st =
        some st' ∧ st'.db = st.db ∧ st'.vm = st.vm ∧ st'.cls.map (·.1) = st.cls.map (·.1) ++ cs ∧
        CStep st st' s s' ∧ CI st' s' ∧ (vals ≠ [] → ∃ e, st'.defs.lookup (id, idx + 1) = some e) := by
  intro vals
  induction vals with
  | nil =>
    intro st s hci _ _ llits rlits cs _ _ hc
    cases hc
    exact ⟨st, s, rfl, rfl, rfl, by simp, CStep.refl _ _, hci, fun h => absurd rfl h⟩
  | cons v vals ih =>
    intro st s hci hx hv llits rlits cs e1 e2 hc
    obtain ⟨v1, v2, v3, v4, v5⟩ := hv v (List.mem_cons_self ..)
    obtain ⟨lhs, l1, l2, l3⟩ := lhsIf_eq hx v1 v3 v4 v5
    have l3 := l3 llits rlits e1 e2
    obtain ⟨gl, gr, pl, pr, ml, mr, ngl, ngr, hnl, hlen, -⟩ := hx.facts
    have hidx := hx.lt
    have hmax := hx.max
    simp only [collect, l3] at hc
    cases hc2 : collect (ifClause p llits rlits idx olit) vals with
    | none => rw [hc2] at hc; cases hc
    | some cs' =>
      rw [hc2] at hc
      injection hc with hc
      subst hc
      obtain ⟨n, st1, s1, c1, c2, c3, c4, c5, c6, e, c7⟩ := certClause_spec (c := Atomics.cubeImplLit lhs olit) hci
        (left := (p.lcon.id, p.lcon.revMapNoLimit v)) (right := (p.rcon.id, p.rcon.revMapNoLimit (idx + 1 - v)))
        (this := (id, idx + 1)) (tyC := .onlyIf) (tyT := .if_)
        (by
          rw [plain_revMapNoLimit pl ml]
          exact gl.semArg hci.wf ngl (by omega) (by omega) (fun hh => by cases hh) (fun _ => v1) fun h0 _ => v4 h0)
        (by
          rw [plain_revMapNoLimit pr mr]
          exact gr.semArg hci.wf ngr (by omega) (by omega) (fun hh => by cases hh) (fun _ => v3) fun h0 _ => v5 h0)
        (hx.thisArg _)
        (by obtain ⟨lits, dp, nl, hn⟩ := hx.node; intro l; show st.db.node id ≠ _; rw [hn]; exact fun hh => by cases hh)
        (fun b => by
          simp only
          rw [plain_revMapNoLimit pl ml, plain_revMapNoLimit pr mr, sat_cubeImplLit, l2]
          simp only [defFun, ifFun, onlyFun]
          rw [if_arith (l := v) (r := idx + 1 - v) (k := idx + 1) (by omega) (by omega)
            (by rw [maxVal_len hx.notGeneral]; omega) (outBit_opt b _) (outBit_opt b _) (outBit_opt b _) _ _ _
            (by rw [hx.value]; push_cast; rfl)]
          rw [hx.out]
          simp only [outBit, lbit_one, and_imp])
      have hdb : CI st1 s1 := c6
      obtain ⟨st2, s2, d1, d2, d3, d4, d5, d6, -⟩ := ih st1 s1 hdb (by rw [c2]; exact hx)
        (by rw [c2]; exact fun w hw => hv w (List.mem_cons_of_mem _ hw)) llits rlits cs' (by rw [c2]; exact e1)
        (by rw [c2]; exact e2) hc2
      rw [c2] at d1
      refine ⟨st2, s2, ?_, by rw [d2, c2], by rw [d3, c3], ?_, c5.trans d5, d6, fun _ => ⟨e, d5.defs _ _ c7⟩⟩
      · simp only [certIfs, l1, c1]
        exact d1
      · rw [d4, c4]; simp

/-- The loop for the "only if" direction. -/
theorem certOnlyIfs_spec {id idx : Nat} {olit : Lit} {p : Pre} : ∀ (vals : List Nat) (st : CSt VM) (s : State), CI st s →
    CCtx st.db id idx olit p.lcon p.rcon →
    (∀ v ∈ vals, v ≤ (st.db.node p.lcon.id).len ∧ v ≤ idx ∧ idx - v ≤ (st.db.node p.rcon.id).len ∧
      (v < (st.db.node p.lcon.id).len → ∃ l, st.db.litAt p.lcon.id (v + 1) = some l) ∧
      (idx - v < (st.db.node p.rcon.id).len → ∃ l, st.db.litAt p.rcon.id (idx - v + 1) = some l)) →
    ∀ llits rlits cs, litSlice st.db p.lcon.id = some llits → litSlice st.db p.rcon.id = some rlits →
    collect (onlyIfClause st.db p llits rlits idx olit) vals = some cs →
    ∃ st' s', certOnlyIfs id idx olit p ((leafLits st.db p.lcon.id).map (·.1)) ((leafLits st.db p.rcon.id).map (·.1)) vals st =
        some st' ∧ st'.db = st.db ∧ st'.vm = st.vm ∧ st'.cls.map (·.1) = st.cls.map (·.1) ++ cs ∧
        CStep st st' s s' ∧ CI st' s' ∧ (vals ≠ [] → ∃ e, st'.defs.lookup (id, idx + 1) = some e) := by
  intro vals
  induction vals with
  | nil =>
    intro st s hci _ _ llits rlits cs _ _ hc
    cases hc
    exact ⟨st, s, rfl, rfl, rfl, by simp, CStep.refl _ _, hci, fun h => absurd rfl h⟩
  | cons v vals ih =>
    intro st s hci hx hv llits rlits cs e1 e2 hc
    obtain ⟨v1, v2, v3, v4, v5⟩ := hv v (List.mem_cons_self ..)
    obtain ⟨lhs, l1, l2, l3⟩ := lhsOnlyIf_eq hx v4 v5
    have l3 := l3 llits rlits e1 e2
    obtain ⟨gl, gr, pl, pr, ml, mr, ngl, ngr, hnl, hlen, -⟩ := hx.facts
    have hidx := hx.lt
    have hmax := hx.max
    simp only [collect, l3] at hc
    cases hc2 : collect (onlyIfClause st.db p llits rlits idx olit) vals with
    | none => rw [hc2] at hc; cases hc
    | some cs' =>
      rw [hc2] at hc
      injection hc with hc
      subst hc
      obtain ⟨n, st1, s1, c1, c2, c3, c4, c5, c6, e, c7⟩ := certClause_spec (c := Atomics.cubeImplLit lhs olit.neg) hci
        (left := (p.lcon.id, p.lcon.revMapNoLimit (v + 1))) (right := (p.rcon.id, p.rcon.revMapNoLimit (idx - v + 1)))
        (this := (id, idx + 1)) (tyC := .if_) (tyT := .onlyIf)
        (by
          rw [plain_revMapNoLimit pl ml]
          exact gl.semArg hci.wf ngl (by omega) (by omega) (fun _ => by omega) (fun hh => by cases hh) fun _ h0 => v4 h0)
        (by
          rw [plain_revMapNoLimit pr mr]
          exact gr.semArg hci.wf ngr (by omega) (by omega) (fun _ => by omega) (fun hh => by cases hh) fun _ h0 => v5 h0)
        (hx.thisArg _)
        (by obtain ⟨lits, dp, nl, hn⟩ := hx.node; intro l; show st.db.node id ≠ _; rw [hn]; exact fun hh => by cases hh)
        (fun b => by
          simp only
          rw [plain_revMapNoLimit pl ml, plain_revMapNoLimit pr mr, sat_cubeImplLit, l2]
          simp only [defFun, ifFun, onlyFun]
          rw [maxVal_len ngl, maxVal_len ngr]
          rw [only_arith (l := v) (r := idx - v) (k := idx + 1) (by omega) v1 v3
            (by omega) (outBit_opt b _) (outBit_opt b _) (outBit_opt b _) _ _ _
            (by rw [hx.value]; push_cast; rfl)]
          rw [hx.out]
          simp only [outBit, and_imp]
          have : olit.neg.holds b = true ↔ lbit b olit = 0 := by
            rw [← lbit_one, lbit_neg]; constructor <;> intro <;> omega
          rw [this])
      obtain ⟨st2, s2, d1, d2, d3, d4, d5, d6, -⟩ := ih st1 s1 c6 (by rw [c2]; exact hx)
        (by rw [c2]; exact fun w hw => hv w (List.mem_cons_of_mem _ hw)) llits rlits cs' (by rw [c2]; exact e1)
        (by rw [c2]; exact e2) (by rw [c2]; exact hc2)
      rw [c2] at d1
      refine ⟨st2, s2, ?_, by rw [d2, c2], by rw [d3, c3], ?_, c5.trans d5, d6, fun _ => ⟨e, d5.defs _ _ c7⟩⟩
      · simp only [certOnlyIfs, l1, c1]
        exact d1
      · rw [d4, c4]; simp

omit [ManageVars VM] in
theorem CStep.same {st st' : CSt VM} (h1 : st'.proof = st.proof) (h2 : st'.cls = st.cls) (h3 : st'.defs = st.defs)
    (h4 : DbRef st.db st'.db) (s : State) : CStep st st' s s :=
  ⟨⟨[], by simp [h1], rfl, by simp [witnessVars]⟩, fun h => by rw [h1]; exact h, Grow.refl s, ⟨[], by simp [h2], by simp⟩,
    fun _ _ h => by rw [h3]; exact h, fun n h => Or.inl (by rw [← h3]; exact h), fun _ h => h.ref h4⟩

theorem Semantics.some_dir (s : Semantics) : s.hasIf = true ∨ s.hasOnlyIf = true := by cases s <;> simp [Semantics.hasIf, Semantics.hasOnlyIf]

/-- Changes of the database without changes to the proof. -/
theorem CI.step {st st' : CSt VM} {s : State} (h : CI st s) {x y : St VM} (hs : Step x y) (h1 : x.db = st.db)
    (h2 : x.vm = st.vm) (h3 : st'.db = y.db) (h4 : st'.vm = y.vm) (h5 : st'.defs = st.defs) (h6 : st'.proof = st.proof) :
    CI st' s := by
  have hw : x.db.WF := by rw [h1]; exact h.wf
  refine ⟨by rw [h3]; exact hs.ref.wf hw, ?_, ?_, by rw [h6]; exact h.next⟩
  · rw [h3, h4]
    exact hs.aux (by rw [h1, h2]; exact h.aux)
  · rw [h3, h4, h5]
    exact CInv.step hs hw (by rw [h1, h2]; exact h.inv)

theorem splitAt_append (a b : List Lit) : splitAt? a.length (a ++ b) = some (a, b) := by
  unfold splitAt?
  rw [if_pos (by simp)]
  simp

/-- The certified encoding of an output does the same as the encoding without certificates. -/
theorem encodeCert_spec {st : CSt VM} {s : State} (h : CI st s) {id idx : Nat} {olit : Lit} {req new : Semantics}
    {lc rc : NodeCon} {st3 : St VM}
    (hx : CCtx st.db id idx olit lc rc)
    (hreq : ∀ q ∈ requests st.db (preRanges st.db lc rc idx new), ∃ l, HasLit st.db q.1 q.2.1 q.2.2 l)
    (he : encodeUnweighted st.proj id idx olit req (preRanges st.db lc rc idx new) = some st3) (hs : Step st.proj st3)
    {leaves : List Lit} (hl : leaves = (leafLits st.db id).map (·.1)) :
    ∃ st' s', encodeUnweightedCert st id idx olit req (preRanges st.db lc rc idx new) leaves = some st' ∧
      st'.proj = st3 ∧ CStep st st' s s' ∧ CI st' s' ∧ ∃ e, st'.defs.lookup (id, idx + 1) = some e := by
  unfold encodeUnweighted at he
  unfold encodeUnweightedCert
  have hp1 : st.proj.db = st.db := rfl
  rw [hp1] at he
  cases hu : st.db.unitData id idx with
  | none => rw [hu] at he; cases he
  | some d =>
    rw [hu] at he
    simp only at he ⊢
    cases hm : d.missingSemantics req with
    | none => rw [hm] at he; cases he
    | some m =>
      rw [hm] at he
      simp only at he ⊢
      obtain ⟨gl, gr, pl, pr, ml, mr, ngl, ngr, hnl, hlen, hlt, hrt⟩ := hx.facts
      generalize hp : preRanges st.db lc rc idx new = p at he hreq ⊢
      have hpl : p.lcon = lc := by rw [← hp]; rfl
      have hpr : p.rcon = rc := by rw [← hp]; rfl
      have hlIf : p.leftIf = if new.hasIf then rangeIncl (idx + 1 - min (st.db.conLen rc) (idx + 1))
          (min (st.db.conLen lc) (idx + 1)) else [] := by rw [← hp]; rfl
      have hrIf : p.rightIf = if new.hasIf then rangeIncl (idx + 1 - min (st.db.conLen lc) (idx + 1))
          (min (st.db.conLen rc) (idx + 1)) else [] := by rw [← hp]; rfl
      have hlO : p.leftOnlyIf = if new.hasOnlyIf then rangeIncl (idx - min (st.db.conLen rc) idx)
          (min (st.db.conLen lc) idx) else [] := by rw [← hp]; rfl
      have hrO : p.rightOnlyIf = if new.hasOnlyIf then rangeIncl (idx - min (st.db.conLen lc) idx)
          (min (st.db.conLen rc) idx) else [] := by rw [← hp]; rfl
      rw [plain_conLen pl, plain_conLen pr] at hlIf hrIf hlO hrO
      generalize hdb : st.db.setUnit id idx (d.addSemantics req) = db' at he ⊢
      cases hll : litSlice db' p.lcon.id with
      | none => rw [hll] at he; cases he
      | some llits =>
      cases hrl : litSlice db' p.rcon.id with
      | none => rw [hll, hrl] at he; cases he
      | some rlits =>
      rw [hll, hrl] at he
      simp only at he
      cases hc1 : collect (ifClause p llits rlits idx olit) p.leftIf with
      | none => rw [hc1] at he; cases he
      | some c1 =>
      cases hc2 : collect (onlyIfClause db' p llits rlits idx olit) p.leftOnlyIf with
      | none => rw [hc1, hc2] at he; cases he
      | some c2 =>
      rw [hc1, hc2] at he
      injection he with he
      have hr : DbRef st.db db' := by
        have := hs.ref
        rw [← he] at this
        exact this
      have hci : CI ({ st with db := db' } : CSt VM) s := h.step hs rfl rfl (by rw [← he]) (by rw [← he]; rfl) rfl rfl
      have hx' : CCtx db' id idx olit p.lcon p.rcon := by
        rw [hpl, hpr]
        obtain ⟨lits, dp, nl, hn⟩ := hx.node
        refine ⟨hr.wf hx.wf, ?_, hx.good.rel hr, by rw [(hr.node id).len]; exact hx.lt, litAt_rel (fun _ _ => keep_of_ref) hr hx.out,
          by rw [(hr.node id).len]; exact hx.max⟩
        rw [← hdb, setUnit_node hn, if_pos rfl]
        exact ⟨_, _, _, rfl⟩
      have hleaf : ∀ i, leafLits db' i = leafLits st.db i := leafLits_rel hr hx.wf
      have hnle : (db'.node p.lcon.id).nLeaves = ((leafLits st.db lc.id).map (·.1)).length := by
        rw [(hr.node _).nLeaves, hpl, List.length_map, gl.leaves_len hx.wf]
      rw [hl, hx.leaves, hnle, splitAt_append]
      simp only
      unfold requests at hreq
      simp only [List.mem_append, List.mem_map, List.mem_filter] at hreq
      rw [hpl, hpr, plain_conLen pl, plain_conLen pr] at hreq
      have keepL : ∀ {i v l}, st.db.litAt i v = some l → db'.litAt i v = some l := litAt_rel (fun _ _ => keep_of_ref) hr
      obtain ⟨st1, s1, a1, a2, a3, a4, a5, a6, a7⟩ := certIfs_spec p.leftIf ({ st with db := db' } : CSt VM) s hci hx'
        (by
          intro v hv
          have hv0 := hv
          by_cases hnew : new.hasIf = true
          · rw [hlIf, if_pos hnew, mem_rangeIncl] at hv
            rw [if_pos hnew] at hrIf
            have hidx := hx.lt
            show v ≤ (db'.node _).len ∧ _ ∧ _ ≤ (db'.node _).len ∧ _
            rw [hpl, hpr, (hr.node _).len, (hr.node _).len]
            refine ⟨by omega, by omega, by omega, fun h0 => ?_, fun h0 => ?_⟩
            · obtain ⟨l, hq⟩ := hreq (lc.id, conIdx (v - 1) lc, .if_)
                (Or.inl (Or.inl (Or.inl ⟨v, ⟨hv0, by simp; omega⟩, rfl⟩)))
              have := hq.litAt
              simp only [plain_conIdx pl ml] at this
              rw [Nat.sub_add_cancel h0] at this
              exact ⟨l, keepL this⟩
            · obtain ⟨l, hq⟩ := hreq (rc.id, conIdx (idx + 1 - v - 1) rc, .if_)
                (Or.inl (Or.inl (Or.inr ⟨idx + 1 - v, ⟨by rw [hrIf, mem_rangeIncl]; omega, by simp; omega⟩, rfl⟩)))
              have := hq.litAt
              simp only [plain_conIdx pr mr] at this
              rw [Nat.sub_add_cancel h0] at this
              exact ⟨l, keepL this⟩
          · rw [hlIf, if_neg hnew] at hv; cases hv)
        llits rlits c1 hll hrl hc1
      simp only [hleaf, hpl, hpr] at a1
      simp only at a2 a3 a4
      rw [a1]
      simp only
      obtain ⟨st2, s2, b1, b2, b3, b4, b5, b6, b7⟩ := certOnlyIfs_spec p.leftOnlyIf st1 s1 a6 (by rw [a2]; exact hx')
        (by
          rw [a2]
          intro v hv
          have hv0 := hv
          by_cases hnew : new.hasOnlyIf = true
          · rw [hlO, if_pos hnew, mem_rangeIncl] at hv
            rw [if_pos hnew] at hrO
            have hidx := hx.lt
            rw [hpl, hpr, (hr.node _).len, (hr.node _).len]
            refine ⟨by omega, by omega, by omega, fun h0 => ?_, fun h0 => ?_⟩
            · obtain ⟨l, hq⟩ := hreq (lc.id, conIdx v lc, .onlyIf)
                (Or.inl (Or.inr ⟨v, ⟨hv0, by simp; omega⟩, rfl⟩))
              have := hq.litAt
              simp only [plain_conIdx pl ml] at this
              exact ⟨l, keepL this⟩
            · obtain ⟨l, hq⟩ := hreq (rc.id, conIdx (idx - v) rc, .onlyIf)
                (Or.inr ⟨idx - v, ⟨by rw [hrO, mem_rangeIncl]; omega, by simp; omega⟩, rfl⟩)
              have := hq.litAt
              simp only [plain_conIdx pr mr] at this
              exact ⟨l, keepL this⟩
          · rw [hlO, if_neg hnew] at hv; cases hv)
        llits rlits c2 (by rw [a2]; exact hll) (by rw [a2]; exact hrl) (by rw [a2]; exact hc2)
      rw [a2] at b1
      simp only [hleaf, hpl, hpr] at b1
      have hself : ∃ e, st2.defs.lookup (id, idx + 1) = some e := by
        have hidx := hx.lt
        rcases new.some_dir with hd | hd
        · have : p.leftIf ≠ [] := by
            rw [hlIf, if_pos hd]
            refine List.ne_nil_of_mem (a := min (st.db.node lc.id).len (idx + 1)) ?_
            rw [mem_rangeIncl]; omega
          obtain ⟨e, he⟩ := a7 this
          exact ⟨e, b5.defs _ _ he⟩
        · apply b7
          rw [hlO, if_pos hd]
          refine List.ne_nil_of_mem (a := min (st.db.node lc.id).len idx) ?_
          rw [mem_rangeIncl]; omega
      refine ⟨st2, s2, b1, ?_, ?_, b6, hself⟩
      · unfold CSt.proj
        rw [← he, b2, a2, b3, a3, b4, a4]
        rfl
      · exact CStep.trans (b := ({ st with db := db' } : CSt VM))
          (CStep.same (st := st) (st' := { st with db := db' }) rfl rfl rfl hr s) (a5.trans b5)

end TotDb
end RustSat
