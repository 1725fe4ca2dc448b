import Verif.Lemmas.OutOfMemWorld
/-
If all weights are different, the tree of a generalized totalizer has no node whose outputs are marked as encoded before
their clauses are collected.
-/
namespace RustSat
namespace TotDb
variable {VM : Type} [ManageVars VM]

/-- The node is a unit node. -/
def Node.isUnit : Node → Bool
  | .unit .. => true
  | _ => false

/-- There is no unit node. -/
def NoUnit (db : Db) : Prop := ∀ i, (db.node i).isUnit = false

theorem NoUnit.rel {R : LitData → LitData → Prop} {db db' : Db} (h : DbRel R db db') (hn : NoUnit db) : NoUnit db' := by
  intro i
  have h1 := hn i
  cases hi : db.node i with
  | leaf l => rw [h.leaf.2 hi]; rfl
  | dummy => rw [h.dummy_iff.2 hi]; rfl
  | unit => rw [hi] at h1; cases h1
  | general =>
    have := (h.node i).isGeneral
    rw [hi] at this
    cases hj : db'.node i with
    | unit => rw [hj] at this; cases this
    | _ => rfl

/-- The memory did not run out at a bad moment. -/
def NotLost {α : Type} (m : Mem VM α) : Prop := ∀ s, m ≠ .oom true s

section
variable {f : St VM → Nat → Nat → Option (Option Lit × St VM)} {mf : MemSt VM → Nat → Nat → Mem VM (Option Lit)}

/-- The recursive calls do not fail at a bad moment. -/
def NotLostSpec (mf : MemSt VM → Nat → Nat → Mem VM (Option Lit)) (bound : Nat) : Prop :=
  ∀ (s : MemSt VM) (id val : Nat), s.st.db.WF → NoUnit s.st.db → id < bound → NotLost (mf s id val)

theorem memPropagateVal_notLost {bound : Nat} (hl : NotLostSpec mf bound) {s : MemSt VM} {val : Nat}
    {olit : Lit} {c : NodeCon} (hw : s.st.db.WF) (hn : NoUnit s.st.db) (hcb : c.id < bound) :
    NotLost (memPropagateVal mf c val olit s) := by
  intro s2 e
  unfold memPropagateVal at e
  by_cases h : (c.isPossible val && decide (c.revMap val ≤ (s.st.db.node c.id).maxVal)) = true
  · rw [if_pos h] at e
    have g := hl s c.id (c.revMap val) hw hn hcb
    cases hx : mf s c.id (c.revMap val) with
    | panic => rw [hx] at e; cases e
    | oom lost s' =>
      rw [hx] at e
      simp only [Mem.bind, Mem.oom.injEq] at e
      rw [e.1] at hx
      exact g s' hx
    | ok a s' =>
      rw [hx] at e
      simp only [Mem.bind] at e
      cases a with
      | none => cases e
      | some l =>
        simp only at e
        rcases collectOne_cases s' (Atomics.litImplLit l olit) with ⟨mem, e'⟩ | ⟨mem, e'⟩
        · rw [e'] at e; cases e
        · rw [e'] at e; cases e
  · rw [if_neg h] at e; cases e

theorem memSumLoop_notLost {bound : Nat} (hf : DefW f bound) (hm : MemSpecW f mf bound) (hl : NotLostSpec mf bound)
    {val : Nat} {olit : Lit} {lc rc : NodeCon} (hlb : lc.id < bound) (hrb : rc.id < bound) {rmax : Nat} :
    ∀ (lvals : List Nat) (s : MemSt VM), s.st.db.WF → NoUnit s.st.db →
    NotLost (memSumLoop mf lc rc rmax val olit lvals s) := by
  intro lvals
  induction lvals with
  | nil => intro s _ _ s2 e; cases e
  | cons lv rest ih =>
    intro s hw hn s2 e
    -- what is known after a recursive call
    have sub : ∀ (s s' : MemSt VM) (id v : Nat) (a : Option Lit), s.st.db.WF → NoUnit s.st.db → id < bound →
        mf s id v = .ok a s' → s'.st.db.WF ∧ NoUnit s'.st.db := by
      intro s s' id v a hw hn hb hx
      obtain ⟨r, st1, e1, s1, -⟩ := hf s.st id v hw hb
      have g := hm s id v hw hb
      rw [e1, hx] at g
      simp only [MemGood, Option.some.injEq, Prod.mk.injEq] at g
      obtain ⟨-, rfl⟩ := g
      exact ⟨s1.ref.wf hw, hn.rel s1.ref⟩
    simp only [memSumLoop] at e
    by_cases h : (rc.isPossible (val - lc.map lv) && decide (rc.revMap (val - lc.map lv) ≤ rmax)) = true
    · rw [if_pos h] at e
      cases hx : mf s rc.id (rc.revMap (val - lc.map lv)) with
      | panic => rw [hx] at e; cases e
      | oom lost s' =>
        rw [hx] at e
        simp only [Mem.bind, Mem.oom.injEq] at e
        rw [e.1] at hx
        exact hl s rc.id _ hw hn hrb s' hx
      | ok a s' =>
        rw [hx] at e
        simp only [Mem.bind] at e
        obtain ⟨hw1, hn1⟩ := sub _ _ _ _ _ hw hn hrb hx
        cases a with
        | none => exact ih s' hw1 hn1 s2 e
        | some rlit =>
          simp only at e
          cases hy : mf s' lc.id lv with
          | panic => rw [hy] at e; cases e
          | oom lost s3 =>
            rw [hy] at e
            simp only [Mem.oom.injEq] at e
            rw [e.1] at hy
            exact hl s' lc.id _ hw1 hn1 hlb s3 hy
          | ok a s3 =>
            rw [hy] at e
            simp only at e
            obtain ⟨hw3, hn3⟩ := sub _ _ _ _ _ hw1 hn1 hlb hy
            cases a with
            | none => cases e
            | some llit =>
              simp only at e
              rcases collectOne_cases s3 (Atomics.cubeImplLit [llit, rlit] olit) with ⟨mem, e'⟩ | ⟨mem, e'⟩
              · rw [e'] at e; exact ih ⟨addClause s3.st _, mem⟩ hw3 hn3 s2 e
              · rw [e'] at e; cases e
    · rw [if_neg h] at e
      exact ih s hw hn s2 e
end

theorem memDefineWeighted_notLost [LawfulVM VM] :
    ∀ fuel, NotLostSpec (fun (s : MemSt VM) id val => memDefineWeighted fuel s id val) fuel := by
  intro fuel
  induction fuel with
  | zero => intro s id val _ _ h; omega
  | succ fuel ih =>
    intro s id val hw hnu hid s9 e
    simp only [memDefineWeighted] at e
    cases hn : s.st.db.node id with
    | dummy => rw [hn] at e; cases e
    | leaf l => rw [hn] at e; cases e
    | unit => have := hnu id; rw [hn] at this; cases this
    | general lits dp nl m lc rc =>
      rw [hn] at e
      simp only at e
      have hlt : id < s.st.db.nodes.length := Db.node_lt (by rw [hn]; intro h; cases h)
      cases hk : valIdx lits val with
      | none => rw [hk] at e; cases e
      | some k =>
        rw [hk] at e
        simp only at e
        obtain ⟨d, hd⟩ := valIdx_some hk
        have hout : (s.st.db.node id).outData k = some (val, d) := by rw [hn]; exact hd
        rw [outLit_of_outData hout] at e
        simp only at e
        by_cases hif : d.hasIf = true
        · obtain ⟨l, t, rfl⟩ : ∃ l t, d = .lit l (some t) := by
            match d, hif with
            | .lit l (some t), _ => exact ⟨l, t, rfl⟩
          simp only [hif, LitData.lit?] at e
          cases e
        · have hif : d.hasIf = false := by simpa using hif
          simp only [hif] at e
          have hok := hw.nodes id _ (Db.getElem?_node hlt)
          rw [hn] at hok
          obtain ⟨o1, o2, o3, o4, o5, o6, o7⟩ := hok
          obtain ⟨olit, t, st1, e1, s1, d1, -, n1, -⟩ := weightedOlit_spec hw hout
          rw [e1] at e
          simp only at e
          have hw1 := s1.ref.wf hw
          have hu1 := hnu.rel s1.ref
          have hx1 : Ctx st1.db id k val olit lc rc :=
            ⟨hw1, s1.ref.plain o3, s1.ref.plain o4, fun T => by
              rw [value_eq hw1, s1.ref.shape, hn]; rfl, ⟨t, d1⟩⟩
          have hl := hx1.left
          have hsv : ∀ lv, lv ∈ sumVals st1.db lc val → lv ∈ (st1.db.node lc.id).valsFrom 1 ∧ lc.map lv < val := by
            intro lv
            unfold sumVals
            rw [hl.offset, Nat.zero_add]
            by_cases h : lc.map 1 < val
            · rw [if_pos h, mem_valsRange (Nat.le_refl _), hl.roundUp]
              rintro ⟨g1, -, g2⟩; exact ⟨g1, g2⟩
            · rw [if_neg h]
              intro h; cases h
          have hf : DefW (fun (st : St VM) i v => defineWeighted fuel st i v) id :=
            fun st i v h1 h2 => defineWeighted_spec fuel st i v h1 (by omega)
          have hm : MemSpecW (fun (st : St VM) i v => defineWeighted fuel st i v)
              (fun s i v => memDefineWeighted fuel s i v) id := fun s i v h1 h2 => memDefineWeighted_good fuel s i v h1 (by omega)
          have hnl : NotLostSpec (fun (s : MemSt VM) i v => memDefineWeighted fuel s i v) id :=
            fun s i v h1 h2 h3 => ih s i v h1 h2 (by omega)
          obtain ⟨st2, e2, s2, n2, -⟩ := sumLoop_spec hf o1 o2 (sumVals st1.db lc val) st1 hx1 rfl hsv
          have g2 := memSumLoop_good hf hm o1 o2 (sumVals st1.db lc val) (⟨st1, s.mem⟩ : MemSt VM) hx1 rfl hsv
          simp only at g2
          rw [e2] at g2
          cases hc2 : memSumLoop (fun s i v => memDefineWeighted fuel s i v) lc rc (st1.db.node rc.id).maxVal val olit
              (sumVals st1.db lc val) (⟨st1, s.mem⟩ : MemSt VM) with
          | panic => rw [hc2] at g2; cases g2
          | oom lost s' =>
            rw [hc2] at e
            simp only [Mem.bind, Mem.oom.injEq] at e
            rw [e.1] at hc2
            exact memSumLoop_notLost hf hm hnl o1 o2 _ _ hw1 hu1 _ hc2
          | ok _ s' =>
            rw [hc2] at g2 e
            simp only [MemGoodU, Option.some.injEq] at g2
            subst g2
            simp only [Mem.bind] at e
            have hx2 := hx1.ref s2.ref
            have hu2 := hu1.rel s2.ref
            obtain ⟨st3, e3, s3, n3, -⟩ := propagateVal_spec hf hx2 (Or.inl rfl) o1
            have g3 := memPropagateVal_good hf hm (val := val) (olit := olit) hx2.wf o1
            rw [e3] at g3
            cases hc3 : memPropagateVal (fun s i v => memDefineWeighted fuel s i v) lc val olit s' with
            | panic => rw [hc3] at g3; cases g3
            | oom lost s4 =>
              rw [hc3] at e
              simp only [Mem.oom.injEq] at e
              rw [e.1] at hc3
              exact memPropagateVal_notLost hnl hx2.wf hu2 o1 _ hc3
            | ok _ s4 =>
              rw [hc3] at g3 e
              simp only [MemGoodU, Option.some.injEq] at g3
              subst g3
              simp only at e
              have hx3 := hx2.ref s3.ref
              have hu3 := hu2.rel s3.ref
              cases hc5 : memPropagateVal (fun s i v => memDefineWeighted fuel s i v) rc val olit s4 with
              | panic => rw [hc5] at e; cases e
              | oom lost s6 =>
                rw [hc5] at e
                simp only [Mem.oom.injEq] at e
                rw [e.1] at hc5
                exact memPropagateVal_notLost hnl hx3.wf hu3 o2 _ hc5
              | ok _ s6 =>
                rw [hc5] at e
                simp only at e
                cases ho : s6.st.db.outLit id k with
                | none => rw [ho] at e; cases e
                | some d => rw [ho] at e; cases e

theorem memDefineVals_notLost [LawfulVM VM] (id : Nat) : ∀ (vals : List Nat) (s : MemSt VM), s.st.db.WF →
    NoUnit s.st.db → (∀ v ∈ vals, v ∈ (s.st.db.node id).valsFrom 1) → NotLost (memDefineVals s id vals) := by
  intro vals
  induction vals with
  | nil => intro s _ _ _ s2 e; cases e
  | cons v rest ih =>
    intro s hw hn h s2 e
    obtain ⟨r, st1, e1, s1, n1, y1, -, a1⟩ := defineWeighted_spec (id + 1) s.st id v hw (Nat.lt_succ_self _)
    obtain ⟨l, rfl, hl⟩ := y1 (h v (by simp))
    have g := memDefineWeighted_good (id + 1) s id v hw (Nat.lt_succ_self _)
    simp only at e1 g
    simp only [memDefineVals] at e
    rw [e1] at g
    cases hx : memDefineWeighted (id + 1) s id v with
    | panic => rw [hx] at g; cases g
    | oom lost s' =>
      rw [hx] at e
      simp only [Mem.bind, Mem.oom.injEq] at e
      rw [e.1] at hx
      exact memDefineWeighted_notLost (id + 1) s id v hw hn (Nat.lt_succ_self _) s' hx
    | ok a s' =>
      rw [hx] at g e
      simp only [MemGood, Option.some.injEq, Prod.mk.injEq] at g
      obtain ⟨rfl, rfl⟩ := g
      simp only [Mem.bind] at e
      exact ih s' (s1.ref.wf hw) (hn.rel s1.ref) (fun w hw' => by
        rw [(s1.ref.node id).valsFrom]; exact h w (by simp [hw'])) s2 e

/-! ### Building trees -/

/-- Nodes are only added. -/
def Keeps (db db' : Db) : Prop := db.nodes.length ≤ db'.nodes.length ∧ ∀ i, i < db.nodes.length → db'.node i = db.node i

theorem Keeps.refl (db : Db) : Keeps db db := ⟨Nat.le_refl _, fun _ _ => rfl⟩

theorem Keeps.trans {a b c : Db} (h1 : Keeps a b) (h2 : Keeps b c) : Keeps a c :=
  ⟨Nat.le_trans h1.1 h2.1, fun i hi => by rw [h2.2 i (Nat.lt_of_lt_of_le hi h1.1), h1.2 i hi]⟩

theorem append_keeps {db db' : Db} {n : Node} (h : db'.nodes = db.nodes ++ [n]) : Keeps db db' := by
  refine ⟨by rw [h]; simp, fun i hi => ?_⟩
  unfold Db.node
  rw [h, List.getD_eq_getElem?_getD, List.getD_eq_getElem?_getD, List.getElem?_append_left hi]

theorem append_node {db db' : Db} {n : Node} (h : db'.nodes = db.nodes ++ [n]) : db'.node db.nodes.length = n := by
  unfold Db.node
  rw [h, List.getD_eq_getElem?_getD]
  simp

theorem NoUnit.append {db db' : Db} {n : Node} (h : db'.nodes = db.nodes ++ [n]) (hn : NoUnit db) (hu : n.isUnit = false) :
    NoUnit db' := by
  intro i
  rcases Nat.lt_trichotomy i db.nodes.length with hi | rfl | hi
  · rw [(append_keeps h).2 i hi]; exact hn i
  · rw [append_node h]; exact hu
  · unfold Db.node
    rw [h, List.getD_eq_getElem?_getD, List.getElem?_eq_none (by simp; omega)]
    rfl

/-- Merging connections to nodes of different weights creates a general node. -/
theorem mergeCons_general {db : Db} {l r : NodeCon} (hn : NoUnit db)
    (h : (db.node l.id).isGeneral = true ∨ (db.node r.id).isGeneral = true ∨ l.multiplier ≠ r.multiplier) :
    Keeps db (mergeCons db l r).2 ∧ NoUnit (mergeCons db l r).2 ∧
      (mergeCons db l r).1.id < (mergeCons db l r).2.nodes.length ∧
      ((mergeCons db l r).2.node (mergeCons db l r).1.id).isGeneral = true := by
  have key : ∀ l r : NodeCon, (l.multiplier ≠ r.multiplier ∨ (db.node l.id).isGeneral = true ∨ (db.node r.id).isGeneral = true) →
      ∃ n : Node, db.insert (Node.internal l r db) = (db.nodes.length, { db with nodes := db.nodes ++ [n] }) ∧
        n.isUnit = false ∧ n.isGeneral = true := by
    intro l r h
    unfold Node.internal
    simp only
    rw [if_pos h]
    exact ⟨_, rfl, rfl, rfl⟩
  unfold mergeCons
  by_cases hc : l.multiplier > 1 ∧ l.multiplier = r.multiplier
  · rw [if_pos hc]
    obtain ⟨n, e, h1, h2⟩ := key { l with multiplier := 1 } { r with multiplier := 1 } (by
      rcases h with h | h | h
      · exact Or.inr (Or.inl h)
      · exact Or.inr (Or.inr h)
      · exact absurd hc.2 h)
    simp only [e]
    refine ⟨append_keeps rfl, hn.append rfl h1, by simp [NodeCon.weighted], ?_⟩
    show (Db.node _ db.nodes.length).isGeneral = true
    rw [append_node rfl]; exact h2
  · rw [if_neg hc]
    obtain ⟨n, e, h1, h2⟩ := key l r (by
      rcases h with h | h | h
      · exact Or.inr (Or.inl h)
      · exact Or.inr (Or.inr h)
      · exact Or.inl h)
    simp only [e]
    refine ⟨append_keeps rfl, hn.append rfl h1, by simp [NodeCon.full], ?_⟩
    show (Db.node _ db.nodes.length).isGeneral = true
    rw [append_node rfl]; exact h2

/-- Two connections that can be merged without a unit node. -/
def Apart (db : Db) (l r : NodeCon) : Prop :=
  (db.node l.id).isGeneral = true ∨ (db.node r.id).isGeneral = true ∨ l.multiplier ≠ r.multiplier

theorem mergeBalancedRec_noUnit :
    ∀ (fuel : Nat) (db : Db) (cons : List NodeCon) (cum : List Nat) (offset : Nat), NoUnit db → cons ≠ [] →
      cons.length ≤ fuel → cum.length = cons.length → cum.Pairwise (· ≤ ·) → (∀ v ∈ cum, offset ≤ v) →
      (∀ c ∈ cons, c.id < db.nodes.length) → cons.Pairwise (Apart db) →
      let r := mergeBalancedRec fuel db cons cum offset
      Keeps db r.2 ∧ NoUnit r.2 ∧ r.1.id < r.2.nodes.length ∧ ((r.2.node r.1.id).isGeneral = true ∨ cons = [r.1]) := by
  intro fuel
  induction fuel with
  | zero =>
    intro db cons cum offset _ hne hf
    have := List.length_pos_iff.2 hne
    omega
  | succ fuel ih =>
    intro db cons cum offset hn hne hf hcl hcs hco hid hap
    rw [mergeBalancedRec.eq_def]
    match cons, hne with
    | [c], _ => exact ⟨Keeps.refl _, hn, hid c (by simp), Or.inr rfl⟩
    | c1 :: c2 :: cs, _ =>
      simp only
      generalize hcons : c1 :: c2 :: cs = cons at *
      have hcl2 : 2 ≤ cum.length := by rw [hcl, ← hcons]; simp
      have hsp := split_bounds hcl2 hco
      generalize hsd : 1 + ((cum.drop 1).takeWhile fun v =>
        decide (v < (cum.getD (cum.length - 1) 0 - offset) / 2 + offset)).length = split at hsp ⊢
      have hs1 : 1 ≤ split := by omega
      have hap2 : (cons.take split ++ cons.drop split).Pairwise (Apart db) := by rw [List.take_append_drop]; exact hap
      rw [List.pairwise_append] at hap2
      have hL := ih db (cons.take split) (cum.take split) offset hn
        (by intro h; have := congrArg List.length h; rw [List.length_take, List.length_nil] at this; omega)
        (by rw [List.length_take]; omega) (by rw [List.length_take, List.length_take]; omega)
        (hcs.sublist (List.take_sublist _ _)) (fun v hv => hco v (List.mem_of_mem_take hv))
        (fun c h => hid c (List.mem_of_mem_take h)) hap2.1
      simp only at hL
      generalize mergeBalancedRec fuel db (cons.take split) (cum.take split) offset = resL at hL ⊢
      obtain ⟨lcon, db1⟩ := resL
      obtain ⟨l1, l2, l3, l4⟩ := hL
      simp only at l1 l2 l3 l4 ⊢
      have hid' : ∀ c ∈ cons.drop split, c.id < db.nodes.length := fun c h => hid c (List.mem_of_mem_drop h)
      have hR := ih db1 (cons.drop split) (cum.drop split) (cum.getD (split - 1) 0) l2
        (by intro h; have := congrArg List.length h; rw [List.length_drop, List.length_nil] at this; omega)
        (by rw [List.length_drop]; omega) (by rw [List.length_drop, List.length_drop]; omega)
        (hcs.sublist (List.drop_sublist _ _))
        (fun v hv => by
          have hsplit : (cum.take split ++ cum.drop split).Pairwise (· ≤ ·) := by
            rw [List.take_append_drop]; exact hcs
          refine (List.pairwise_append.1 hsplit).2.2 _ ?_ v hv
          rw [List.getD_eq_getElem?_getD, List.getElem?_eq_getElem (by omega)]
          simp only [Option.getD_some]
          rw [List.mem_take_iff_getElem]
          exact ⟨split - 1, by omega, rfl⟩)
        (fun c h => Nat.lt_of_lt_of_le (hid' c h) l1.1)
        (hap2.2.1.imp_of_mem fun {a b} ha hb h => by
          unfold Apart at h ⊢
          rw [l1.2 _ (hid' a ha), l1.2 _ (hid' b hb)]
          exact h)
      simp only at hR
      generalize mergeBalancedRec fuel db1 (cons.drop split) (cum.drop split) (cum.getD (split - 1) 0) = resR at hR ⊢
      obtain ⟨rcon, db2⟩ := resR
      obtain ⟨r1, r2, r3, r4⟩ := hR
      simp only at r1 r2 r3 r4 ⊢
      obtain ⟨m1, m2, m3, m4⟩ := mergeCons_general (l := lcon) (r := rcon) r2 (by
        rw [r1.2 _ l3]
        rcases l4 with l4 | l4
        · exact Or.inl l4
        · rcases r4 with r4 | r4
          · exact Or.inr (Or.inl r4)
          · have hlm : lcon ∈ cons.take split := by rw [l4]; simp
            have hrm : rcon ∈ cons.drop split := by rw [r4]; simp
            have := hap2.2.2 lcon hlm rcon hrm
            unfold Apart at this
            rw [r1.2 _ (Nat.lt_of_lt_of_le (hid' _ hrm) l1.1), l1.2 _ (hid' _ hrm), l1.2 _ (hid _ (List.mem_of_mem_take hlm))]
            exact this)
      exact ⟨l1.trans (r1.trans m1), m2, m3, Or.inl m4⟩

theorem segments_distinct {α : Type} (key : α → Nat) : ∀ l : List α, (l.map key).Nodup → segments key l = l.map fun x => [x] := by
  intro l
  induction l with
  | nil => intro _; rfl
  | cons x xs ih =>
    intro h
    rw [List.map_cons, List.nodup_cons] at h
    rw [segments, ih h.2]
    cases xs with
    | nil => rfl
    | cons y ys =>
      simp only [List.map_cons]
      rw [if_neg]
      intro e
      exact h.1 (by rw [e]; simp)

theorem merge_single (db : Db) (c : NodeCon) : merge db [c] = (some c, db) := by
  simp [merge, reverseWidth, mergeLoop, mergeLevel]

theorem litTree_single {db : Db} (hw : db.WF) (hn : NoUnit db) (l : Lit) :
    ∃ id db', litTree db [l] = (some id, db') ∧ db'.WF ∧ NoUnit db' ∧ Keeps db db' ∧ id < db'.nodes.length := by
  have h := insert_leaf hw l
  simp only at h
  have hk : Keeps db (db.insert (.leaf l)).2 ∧ NoUnit (db.insert (.leaf l)).2 := by
    unfold Db.insert
    simp only
    cases db.lookupLeaf.lookup l with
    | some id => exact ⟨Keeps.refl _, hn⟩
    | none => exact ⟨append_keeps rfl, hn.append rfl rfl⟩
  unfold litTree insertLeaves insertLeaves
  generalize db.insert (.leaf l) = r at h hk
  obtain ⟨id, db1⟩ := r
  refine ⟨id, db1, ?_, h.1, hk.2, hk.1, h.2.2.2⟩
  simp only [merge_single]
  rfl

theorem segTrees_distinct : ∀ (lits : List (Lit × Nat)) (db : Db), db.WF → NoUnit db → (∀ x ∈ lits, 0 < x.2) →
    ∃ cons db', segTrees db (lits.map fun x => [x]) = some (cons, db') ∧ db'.WF ∧ NoUnit db' ∧ Keeps db db' ∧
      (∀ c ∈ cons, c.id < db'.nodes.length) ∧ cons.map (·.multiplier) = lits.map (·.2) := by
  intro lits
  induction lits with
  | nil => intro db hw hn _; exact ⟨[], db, rfl, hw, hn, Keeps.refl _, by simp, rfl⟩
  | cons x xs ih =>
    intro db hw hn hp
    obtain ⟨id, db1, e1, w1, n1, k1, i1⟩ := litTree_single hw hn x.1
    obtain ⟨cons, db2, e2, w2, n2, k2, i2, m2⟩ := ih db1 w1 n1 fun y hy => hp y (by simp [hy])
    have hx := hp x (by simp)
    refine ⟨NodeCon.weighted id x.2 :: cons, db2, ?_, w2, n2, k1.trans k2, fun c hc => ?_, ?_⟩
    · simp only [List.map_cons, segTrees, List.headD_cons, List.map_nil, e1, e2]
      rw [if_neg (by omega)]
    · rcases List.mem_cons.1 hc with rfl | hc
      · exact Nat.lt_of_lt_of_le i1 k2.1
      · exact i2 c hc
    · simp only [List.map_cons, m2]
      rfl

end TotDb
end RustSat
