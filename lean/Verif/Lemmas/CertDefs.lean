import Verif.Lemmas.CertOps
import Verif.Lemmas.CertTree
import Mathlib.Tactic.Ring
import Mathlib.Tactic.Linarith
/-
The definitions of outputs in the proof: what they say, that they are accepted by the checker, and the invariant.
-/
namespace RustSat
namespace TotDb
open Pigeons VeriPb

/-- The value of an output literal as a number; zero if there is none. -/
def outBit (b : Asg) : Option Lit → Int
  | some l => lbit b l
  | none => 0

/-- The slack of the definition `value >= k -> output` of a node: with `W` the largest value,
`(W - value) + (W - k + 1) * output >= W - k + 1`. -/
def ifFun (db : Db) (id k : Nat) (b : Asg) : Int :=
  ((db.node id).maxVal - value db (trueLits b) id) -
    ((db.node id).maxVal - k + 1) * (1 - outBit b (db.litAt id k))

/-- The slack of the definition `output -> value >= k` of a node: `value + k * (not output) >= k`. -/
def onlyFun (db : Db) (id k : Nat) (b : Asg) : Int :=
  value db (trueLits b) id - k * outBit b (db.litAt id k)

def defFun (ty : SemDefType) (db : Db) (id k : Nat) (b : Asg) : Int :=
  match ty with
  | .if_ => ifFun db id k b
  | .onlyIf => onlyFun db id k b

/-- The checker has a constraint with a given slack. -/
def HasDef (s : State) (n : Nat) (f : Asg → Int) : Prop :=
  n < s.next ∧ ∃ D, s.get n = some D ∧ ∀ b, D.slack b = f b

theorem HasDef.grow {s s' : State} (h : Grow s s') {n : Nat} {f : Asg → Int} (hd : HasDef s n f) : HasDef s' n f := by
  obtain ⟨h1, D, h2, h3⟩ := hd
  exact ⟨Nat.lt_of_lt_of_le h1 h.next, D, by rw [h.keep n h1]; exact h2, h3⟩

/-- The definitions of the output with value `k` of a node. Value 0 only has the trivial definition "only if", the
value after the largest one only "if". -/
structure DefOK (db : Db) (s : State) (id k : Nat) (e : SemDefs) : Prop where
  rng : k ≤ (db.node id).maxVal + 1
  mid : 0 < k → k ≤ (db.node id).maxVal → ∃ l, db.litAt id k = some l
  if_ : 0 < k → ∃ n, e.ifDef = some n ∧ HasDef s n (ifFun db id k)
  only : k ≤ (db.node id).maxVal → ∃ n, e.onlyIfDef = some n ∧ HasDef s n (onlyFun db id k)
  zero : k = 0 → e.ifDef = none
  last : (db.node id).maxVal < k → e.onlyIfDef = none
  node : db.node id ≠ .dummy

theorem DefOK.grow {db : Db} {s s' : State} (h : Grow s s') {id k : Nat} {e : SemDefs} (hd : DefOK db s id k e) :
    DefOK db s' id k e :=
  ⟨hd.rng, hd.mid, fun hk => (hd.if_ hk).imp fun _ hn => ⟨hn.1, hn.2.grow h⟩,
    fun hk => (hd.only hk).imp fun _ hn => ⟨hn.1, hn.2.grow h⟩, hd.zero, hd.last, hd.node⟩

theorem valIdx_keys (lits : List (Nat × LitData)) (val : Nat) :
    valIdx lits val = (lits.map (·.1)).findIdx? fun x => x == val := by
  unfold valIdx
  rw [List.findIdx?_map]
  rfl

theorem litAt_rel {R : LitData → LitData → Prop} (hR : ∀ x y, R x y → LitKeep x y) {db db' : Db} (h : DbRel R db db')
    {id k : Nat} {l : Lit} (hl : db.litAt id k = some l) : db'.litAt id k = some l := by
  have hn := h.node id
  unfold Db.litAt at hl ⊢
  cases h1 : db.node id with
  | dummy => rw [h1] at hl; cases hl
  | leaf x =>
    rw [h1] at hl hn
    cases h2 : db'.node id with
    | leaf y =>
      rw [h2] at hn
      have : x = y := hn
      rw [← this]
      exact hl
    | dummy => rw [h2] at hn; exact hn.elim
    | unit => rw [h2] at hn; exact hn.elim
    | general => rw [h2] at hn; exact hn.elim
  | unit lits dp nl lc rc =>
    rw [h1] at hl hn
    cases h2 : db'.node id with
    | leaf y => rw [h2] at hn; exact hn.elim
    | dummy => rw [h2] at hn; exact hn.elim
    | general => rw [h2] at hn; exact hn.elim
    | unit lits' dp' nl' lc' rc' =>
      rw [h2] at hn
      obtain ⟨-, -, -, -, hlen, hrel⟩ := hn
      simp only at hl ⊢
      by_cases hk : k = 0
      · rw [if_pos hk] at hl; cases hl
      · rw [if_neg hk] at hl ⊢
        cases hx : lits[k - 1]? with
        | none => rw [hx] at hl; cases hl
        | some x =>
          rw [hx] at hl
          have hlt : k - 1 < lits'.length := by
            rw [hlen]
            exact (List.getElem?_eq_some_iff.1 hx).1
          have hy := List.getElem?_eq_getElem hlt
          rw [hy]
          have := hR _ _ (hrel _ _ _ hx hy)
          simp only [Option.bind_some] at hl ⊢
          cases x with
          | none => cases hl
          | lit z sm =>
            injection hl with hl
            subst hl
            obtain ⟨s', e⟩ := this z sm rfl
            rw [e]; rfl
  | general lits dp nl m lc rc =>
    rw [h1] at hl hn
    cases h2 : db'.node id with
    | leaf y => rw [h2] at hn; exact hn.elim
    | dummy => rw [h2] at hn; exact hn.elim
    | unit => rw [h2] at hn; exact hn.elim
    | general lits' dp' nl' m' lc' rc' =>
      rw [h2] at hn
      obtain ⟨-, -, -, -, -, hkeys, hrel⟩ := hn
      simp only at hl ⊢
      rw [valIdx_keys, hkeys, ← valIdx_keys]
      cases hi : valIdx lits k with
      | none => rw [hi] at hl; cases hl
      | some j =>
        rw [hi] at hl
        simp only [Option.bind_some] at hl ⊢
        cases hx : lits[j]? with
        | none => rw [hx] at hl; cases hl
        | some x =>
          rw [hx] at hl
          have hlt : j < lits'.length := by
            have := congrArg List.length hkeys
            simp only [List.length_map] at this
            rw [this]
            exact (List.getElem?_eq_some_iff.1 hx).1
          have hy := List.getElem?_eq_getElem hlt
          rw [hy]
          have := hR _ _ (hrel _ _ _ hx hy)
          simp only [Option.bind_some] at hl ⊢
          cases hx2 : x.2 with
          | none => rw [hx2] at hl; cases hl
          | lit z sm =>
            rw [hx2] at hl this
            injection hl with hl
            subst hl
            obtain ⟨s', e⟩ := this z sm rfl
            rw [e]; rfl

theorem litAt_out {db : Db} {id k : Nat} {l : Lit} (h : db.litAt id k = some l) :
    (db.node id = .leaf l ∧ k = 1) ∨ ∃ j, OutAt db id j k l := by
  unfold Db.litAt at h
  cases hn : db.node id with
  | dummy => rw [hn] at h; cases h
  | leaf x =>
    rw [hn] at h
    simp only at h
    by_cases hk : k = 1
    · rw [if_pos hk] at h
      injection h with h
      subst h
      exact Or.inl ⟨rfl, hk⟩
    · rw [if_neg hk] at h; cases h
  | unit lits dp nl lc rc =>
    rw [hn] at h
    simp only at h
    by_cases hk : k = 0
    · rw [if_pos hk] at h; cases h
    · rw [if_neg hk] at h
      cases hx : lits[k - 1]? with
      | none => rw [hx] at h; cases h
      | some x =>
        rw [hx] at h
        cases x with
        | none => cases h
        | lit z sm =>
          injection h with h
          subst h
          refine Or.inr ⟨k - 1, sm, ?_⟩
          rw [hn]
          simp only [Node.outData, hx, Option.map_some, Option.some.injEq, Prod.mk.injEq, and_true]
          omega
  | general lits dp nl m lc rc =>
    rw [hn] at h
    simp only at h
    cases hi : valIdx lits k with
    | none => rw [hi] at h; cases h
    | some j =>
      rw [hi] at h
      obtain ⟨d, hd⟩ := valIdx_some hi
      simp only [Option.bind_some, hd] at h
      cases d with
      | none => cases h
      | lit z sm =>
        injection h with h
        subst h
        exact Or.inr ⟨j, sm, by rw [hn]; exact hd⟩

theorem ifFun_rel {R : LitData → LitData → Prop} (hR : ∀ x y, R x y → LitKeep x y) {db db' : Db} (h : DbRel R db db')
    (hw : db.WF) {id k : Nat} (hk : k = (db.node id).maxVal + 1 ∨ ∃ l, db.litAt id k = some l) (b : Asg) :
    ifFun db' id k b = ifFun db id k b := by
  unfold ifFun
  rw [h.value hw, (h.node id).maxVal]
  rcases hk with hk | ⟨l, hl⟩
  · have : ((db.node id).maxVal : Int) - k + 1 = 0 := by rw [hk]; push_cast; ring
    rw [this, Int.zero_mul, Int.zero_mul]
  · rw [hl, litAt_rel hR h hl]

theorem onlyFun_rel {R : LitData → LitData → Prop} (hR : ∀ x y, R x y → LitKeep x y) {db db' : Db} (h : DbRel R db db')
    (hw : db.WF) {id k : Nat} (hk : k = 0 ∨ ∃ l, db.litAt id k = some l) (b : Asg) :
    onlyFun db' id k b = onlyFun db id k b := by
  unfold onlyFun
  rw [h.value hw]
  rcases hk with hk | ⟨l, hl⟩
  · rw [hk]; simp
  · rw [hl, litAt_rel hR h hl]

theorem DefOK.rel {R : LitData → LitData → Prop} (hR : ∀ x y, R x y → LitKeep x y) {db db' : Db} (h : DbRel R db db')
    (hw : db.WF) {s : State} {id k : Nat} {e : SemDefs} (hd : DefOK db s id k e) : DefOK db' s id k e := by
  have hm := (h.node id).maxVal
  refine ⟨by rw [hm]; exact hd.rng, fun h1 h2 => ?_, fun h1 => ?_, fun h1 => ?_, hd.zero, fun h1 => hd.last (by rw [← hm]; exact h1),
    fun hh => hd.node (h.dummy_iff.1 hh)⟩
  · rw [hm] at h2
    exact (hd.mid h1 h2).imp fun _ hl => litAt_rel hR h hl
  · obtain ⟨n, h2, h3, D, h4, h5⟩ := hd.if_ h1
    refine ⟨n, h2, h3, D, h4, fun b => ?_⟩
    rw [h5, ifFun_rel hR h hw]
    by_cases hk : k ≤ (db.node id).maxVal
    · exact Or.inr (hd.mid h1 hk)
    · have := hd.rng
      exact Or.inl (by omega)
  · rw [hm] at h1
    obtain ⟨n, h2, h3, D, h4, h5⟩ := hd.only h1
    refine ⟨n, h2, h3, D, h4, fun b => ?_⟩
    rw [h5, onlyFun_rel hR h hw]
    by_cases hk : k = 0
    · exact Or.inl hk
    · exact Or.inr (hd.mid (by omega) h1)

/-- A variable is known, and if it is the output of a node, then the output is defined in the proof. -/
def Covered (n : Nat) (db : Db) (defs : Defs) (v : Nat) : Prop :=
  v < n ∧ ∀ i k val l, OutAt db i k val l → l.var = v → ∃ e, defs.lookup (i, val) = some e

/-- The ids of all definitions. -/
def defIds (defs : Defs) : List Nat := defs.flatMap fun d => d.2.ids

/-- A variable is an output of the database. -/
def IsOut (db : Db) (v : Nat) : Prop := ∃ i k val l, OutAt db i k val l ∧ l.var = v

theorem IsOut.ref {db db' : Db} (h : DbRef db db') {v : Nat} (ho : IsOut db v) : IsOut db' v := by
  obtain ⟨i, k, val, l, h1, h2⟩ := ho
  exact ⟨i, k, val, l, h1.ref (fun _ _ => keep_of_ref) h, h2⟩

/-- The definitions in the database and the state of the checker agree. -/
structure CInv (n : Nat) (db : Db) (ds : Defs) (s : State) : Prop where
  ok : s.Ok
  cov : ∀ D ∈ s.constrs, ∀ v, D.Has v → Covered n db ds v
  defs : ∀ i k e, ds.lookup (i, k) = some e → DefOK db s i k e
  ids : ∀ n ∈ defIds ds, n < s.next ∧ ∃ D, s.get n = some D

theorem CInv.step {VM : Type} [ManageVars VM] {st st' : St VM} (h : Step st st') (hw : st.db.WF) {defs : Defs}
    {s : State} (hc : CInv (ManageVars.nUsed st.vm) st.db defs s) : CInv (ManageVars.nUsed st'.vm) st'.db defs s := by
  refine ⟨hc.ok, fun D hD v hv => ?_, fun i k e he => (hc.defs i k e he).rel (fun _ _ => keep_of_ref) h.ref hw, hc.ids⟩
  obtain ⟨h1, h2⟩ := hc.cov D hD v hv
  refine ⟨Nat.lt_of_lt_of_le h1 h.used, fun i k val l ho hl => ?_⟩
  rcases h.fresh i k val l ho with ho | ho
  · exact h2 i k val l ho hl
  · omega

theorem Covered.mono {n : Nat} {db : Db} {defs : Defs} {v : Nat} (h : Covered n db defs v) {defs' : Defs}
    (hd : ∀ x e, defs.lookup x = some e → ∃ e', defs'.lookup x = some e') : Covered n db defs' v :=
  ⟨h.1, fun i k val l ho hl => by obtain ⟨e, he⟩ := h.2 i k val l ho hl; exact hd _ e he⟩

/-- Steps that write to the proof: the checker accepts what is written. The clauses that were collected are those of
the constraints with their ids. -/
structure CStep {VM : Type} (st st' : CSt VM) (s s' : State) : Prop where
  lines : ∃ ls, st'.proof.lines = st.proof.lines ++ ls ∧ run s ls = some s' ∧ ∀ v ∈ witnessVars ls, IsOut st'.db v
  next : s.next = st.proof.nextId → s'.next = st'.proof.nextId
  grow : Grow s s'
  cls : ∃ new, st'.cls = st.cls ++ new ∧ ∀ x ∈ new, (s.next ≤ x.2 ∧ x.2 < s'.next ∧ x.2 ∉ defIds st'.defs) ∧
    ∃ D, s'.get x.2 = some D ∧ ∀ b, D.sat b ↔ Clause.sat b x.1
  defs : ∀ x e, st.defs.lookup x = some e → st'.defs.lookup x = some e
  ids : ∀ n ∈ defIds st'.defs, n ∈ defIds st.defs ∨ (s.next ≤ n ∧ n < s'.next)
  out : ∀ v, IsOut st.db v → IsOut st'.db v

variable {VM : Type}

theorem CStep.refl (st : CSt VM) (s : State) : CStep st st s s :=
  ⟨⟨[], by simp, rfl, by simp [witnessVars]⟩, id, Grow.refl s, ⟨[], by simp, by simp⟩, fun _ _ h => h,
    fun _ h => Or.inl h, fun _ h => h⟩

theorem witnessVars_append : ∀ a b : List Line, witnessVars (a ++ b) = witnessVars a ++ witnessVars b := by
  intro a b
  induction a with
  | nil => rfl
  | cons l a ih => cases l <;> simp [witnessVars, ih]

theorem CStep.trans {a b c : CSt VM} {s t u : State} (h1 : CStep a b s t) (h2 : CStep b c t u) : CStep a c s u := by
  obtain ⟨l1, e1, r1, w1⟩ := h1.lines
  obtain ⟨l2, e2, r2, w2⟩ := h2.lines
  obtain ⟨n1, c1, d1⟩ := h1.cls
  obtain ⟨n2, c2, d2⟩ := h2.cls
  refine ⟨⟨l1 ++ l2, by rw [e2, e1, List.append_assoc], ?_, fun v hv => ?_⟩, fun h => h2.next (h1.next h), h1.grow.trans h2.grow,
    ⟨n1 ++ n2, by rw [c2, c1, List.append_assoc], fun x hx => ?_⟩, fun x e h => h2.defs x e (h1.defs x e h),
    fun n hn => ?_, fun v hv => h2.out v (h1.out v hv)⟩
  · rw [run_append, r1]
    exact r2
  · rw [witnessVars_append] at hv
    rcases List.mem_append.1 hv with hv | hv
    · exact h2.out v (w1 v hv)
    · exact w2 v hv
  · rcases List.mem_append.1 hx with hx | hx
    · obtain ⟨⟨a0, a1, a4⟩, D, a2, a3⟩ := d1 x hx
      refine ⟨⟨a0, Nat.lt_of_lt_of_le a1 h2.grow.next, fun hn => ?_⟩, D, by rw [h2.grow.keep _ a1]; exact a2, a3⟩
      rcases h2.ids _ hn with hn | hn
      · exact a4 hn
      · omega
    · obtain ⟨⟨a0, a1, a4⟩, D, a2, a3⟩ := d2 x hx
      exact ⟨⟨Nat.le_trans h1.grow.next a0, a1, a4⟩, D, a2, a3⟩
  · have g1 := h1.grow.next
    have g2 := h2.grow.next
    rcases h2.ids n hn with hn | hn
    · rcases h1.ids n hn with hn | hn
      · exact Or.inl hn
      · exact Or.inr ⟨hn.1, by omega⟩
    · exact Or.inr ⟨by omega, hn.2⟩

/-- The step of writing one line that introduces a constraint. -/
theorem CStep.push {st st' : CSt VM} {s : State} {d : Ineq} {l : Line} (hl : step s l = some (s.push d))
    (h1 : st'.proof = (st.proof.push l).2) (h2 : st'.cls = st.cls)
    (h3 : ∀ x e, st.defs.lookup x = some e → st'.defs.lookup x = some e)
    (h4 : ∀ n ∈ defIds st'.defs, n ∈ defIds st.defs ∨ n = s.next) (h5 : ∀ v ∈ witnessVars [l], IsOut st'.db v)
    (h6 : st'.db = st.db) : CStep st st' s (s.push d) :=
  ⟨⟨[l], by rw [h1]; rfl, by simp only [run, hl], h5⟩, fun h => by rw [h1]; show s.next + 1 = st.proof.nextId + 1; rw [h],
    Grow.push s d, ⟨[], by simp [h2], by simp⟩, h3,
    fun n hn => (h4 n hn).imp (fun h => h) fun h => by rw [h]; exact ⟨Nat.le_refl _, Nat.lt_succ_self _⟩,
    fun _ h => by rw [h6]; exact h⟩

/-- The leaves passed along are those of the node. -/
structure LeafOK (db : Db) (id : Nat) (leaves : List (Lit × Nat)) : Prop where
  sum : ∀ T, wsumT T leaves = value db T id
  leaf : ∀ x ∈ leaves, ∃ j, db.node j = .leaf x.1

theorem Good.leafOK {db : Db} (hw : db.WF) {id : Nat} (h : Good db id) : LeafOK db id (leafLits db id) :=
  ⟨h.leaves_sum hw, h.leaves_leaf hw⟩

theorem sumWeights_eq (l : List (Lit × Nat)) : PbConstraint.sumWeights l = wsumT (fun _ => true) l := by
  unfold PbConstraint.sumWeights wsumT
  have : ∀ (l : List (Lit × Nat)) (a : Nat), l.foldl (fun s p => s + p.2) a = a + (l.map fun x => if (fun _ => true) x.1 then x.2 else 0).sum := by
    intro l
    induction l with
    | nil => intro a; simp
    | cons x l ih =>
      intro a
      rw [List.foldl_cons, ih]
      simp
      omega
  rw [this, Nat.zero_add]

/-- The sum of weighted literals as it occurs in constraints. -/
def lsum (l : List (Lit × Nat)) : List (Int × Lit) := l.map fun x => ((x.2 : Int), x.1)

theorem csum_append (b : Asg) (l m : List (Int × Lit)) : csum b (l ++ m) = csum b l + csum b m := by
  induction l with
  | nil => simp [csum]
  | cons x l ih => simp only [List.cons_append, csum, ih]; ring

theorem csum_lsum (b : Asg) (l : List (Lit × Nat)) : csum b (lsum l) = (wsumT (trueLits b) l : Nat) := by
  induction l with
  | nil => rfl
  | cons x l ih =>
    have h1 : csum b (lsum (x :: l)) = (x.2 : Int) * lbit b x.1 + csum b (lsum l) := rfl
    have h2 : wsumT (trueLits b) (x :: l) = (if trueLits b x.1 then x.2 else 0) + wsumT (trueLits b) l := by
      unfold wsumT; simp
    rw [h1, h2, ih]
    unfold lbit trueLits
    by_cases h : x.1.holds b = true
    · rw [if_pos h, if_pos h]; push_cast; ring
    · rw [if_neg h, if_neg h]; push_cast; ring

theorem csum_neg (b : Asg) (l : List (Lit × Nat)) :
    csum b (lsum (l.map fun x => (x.1.neg, x.2))) = (wsumT (fun _ => true) l : Nat) - (wsumT (trueLits b) l : Nat) := by
  induction l with
  | nil => rfl
  | cons x l ih =>
    have h1 : csum b (lsum ((x :: l).map fun x => (x.1.neg, x.2))) =
        (x.2 : Int) * lbit b x.1.neg + csum b (lsum (l.map fun x => (x.1.neg, x.2))) := rfl
    have h2 : ∀ T, wsumT T (x :: l) = (if T x.1 then x.2 else 0) + wsumT T l := by
      intro T; unfold wsumT; simp
    rw [h1, h2, h2, ih, lbit_neg]
    unfold lbit trueLits
    by_cases h : x.1.holds b = true
    · rw [if_pos h, if_pos h]; push_cast; simp
    · rw [if_neg h, if_neg h]; push_cast; simp; ring

theorem convert_nonneg : ∀ ls : List (Lit × Int), (∀ x ∈ ls, 0 ≤ x.2) →
    (PbConstraint.convertInputLits ls).1 = ls.map (fun x => (x.1, x.2.natAbs)) ∧
      (PbConstraint.convertInputLits ls).2.2 = 0 := by
  intro ls
  induction ls with
  | nil => intro _; exact ⟨rfl, rfl⟩
  | cons x ls ih =>
    intro h
    obtain ⟨h1, h2⟩ := ih fun y hy => h y (List.mem_cons_of_mem _ hy)
    obtain ⟨l, w⟩ := x
    have hx : 0 ≤ w := h (l, w) (List.mem_cons_self ..)
    simp only [PbConstraint.convertInputLits]
    rw [if_pos hx]
    exact ⟨by simp [h1], h2⟩

/-- The constraint written for the definition `value >= k -> output`. -/
theorem pbImplLit_constr {leaves : List (Lit × Nat)} {W k : Nat} (hW : PbConstraint.sumWeights leaves = W) (hk : k ≤ W)
    (hmax : W ≤ isizeMax) (o : Lit) :
    ∃ c, Atomics.pbImplLit (PbConstraint.newLbUnsigned leaves k) o = .ok c ∧
      c.constr = some ⟨lsum (leaves.map fun x => (x.1.neg, x.2)) ++ [((W : Int) - k + 1, o)], (W : Int) - k + 1⟩ := by
  unfold Atomics.pbImplLit
  have hun : (PbConstraint.newLbUnsigned leaves k).isUnsat = false := by
    unfold PbConstraint.newLbUnsigned PbConstraint.isUnsat
    simp only
    rw [if_neg (by omega), hW]
    simp; omega
  rw [hun]
  simp only [Bool.false_eq_true, if_false, PbConstraint.newLbUnsigned, PbConstraint.weightSum, hW, Atomics.toIsize, hmax, if_true]
  refine ⟨_, rfl, ?_⟩
  obtain ⟨h1, h2⟩ := convert_nonneg (leaves.map (fun p => (p.1.neg, (p.2 : Int))) ++ [(o, (W : Int) - k + 1)]) (by
    intro x hx
    rcases List.mem_append.1 hx with hx | hx
    · obtain ⟨y, -, rfl⟩ := List.mem_map.1 hx
      simp
    · have : x = (o, (W : Int) - k + 1) := by simpa using hx
      rw [this]
      show (0 : Int) ≤ W - k + 1
      omega)
  unfold PbConstraint.newLb
  generalize PbConstraint.convertInputLits (leaves.map (fun p => (p.1.neg, (p.2 : Int))) ++ [(o, (W : Int) - k + 1)]) = r at h1 h2 ⊢
  obtain ⟨l, ws, badd⟩ := r
  simp only at h1 h2
  subst h1 h2
  simp only [PbConstraint.constr, lsum, List.map_append, List.map_map, List.map_cons, List.map_nil, Int.add_zero]
  congr 1
  have e1 : ((((W : Int) - k + 1).natAbs : Nat) : Int) = W - k + 1 := by omega
  rw [e1]
  congr 2

/-- The constraint written for the definition `output -> value >= k`. -/
theorem litImplPb_constr {leaves : List (Lit × Nat)} {W k : Nat} (hW : PbConstraint.sumWeights leaves = W) (hk : k ≤ W)
    (o : Lit) :
    ∃ c, Atomics.litImplPb o (PbConstraint.newLbUnsigned leaves k) = .ok c ∧
      c.constr = some ⟨lsum leaves ++ [((k : Int), o.neg)], k⟩ := by
  unfold Atomics.litImplPb
  have hun : (PbConstraint.newLbUnsigned leaves k).isUnsat = false := by
    unfold PbConstraint.newLbUnsigned PbConstraint.isUnsat
    simp only
    rw [if_neg (by omega), hW]
    simp; omega
  rw [hun]
  simp only [Bool.false_eq_true, if_false, PbConstraint.newLbUnsigned, PbConstraint.bound]
  refine ⟨_, rfl, ?_⟩
  unfold PbConstraint.add
  simp only [PbConstraint.convertInputLits]
  rw [if_pos (by omega)]
  simp only [PbConstraint.constr, lsum, List.map_append, List.map_cons, List.map_nil, Int.add_zero]
  simp

end TotDb
end RustSat
