import Verif.Lemmas.Dpw
import Verif.Lemmas.Simulators
import Verif.Lemmas.AdderWorld
import Verif.Spec.Dpw
/-
The invariant of the dynamic polynomial watchdog.
-/
namespace RustSat
open TotDb Card
namespace TotDb

/-- Only outputs in `Q` are changed. -/
structure Fr (Q : Nat → Nat → Prop) (db db' : Db) : Prop where
  shape : ∀ i, (db'.node i).shape = (db.node i).shape
  out : ∀ i k, ¬ Q i k → (db'.node i).outData k = (db.node i).outData k

theorem Fr.refl (Q : Nat → Nat → Prop) (db : Db) : Fr Q db db := ⟨fun _ => rfl, fun _ _ _ => rfl⟩

theorem Fr.trans {Q : Nat → Nat → Prop} {a b c : Db} (h1 : Fr Q a b) (h2 : Fr Q b c) : Fr Q a c :=
  ⟨fun i => (h2.shape i).trans (h1.shape i), fun i k h => (h2.out i k h).trans (h1.out i k h)⟩

theorem Fr.mono {Q Q' : Nat → Nat → Prop} {a b : Db} (h : Fr Q a b) (hQ : ∀ i k, Q i k → Q' i k) : Fr Q' a b :=
  ⟨h.shape, fun i k hn => h.out i k fun hq => hn (hQ i k hq)⟩

theorem Fr.setUnit (db : Db) (id idx : Nat) (d : LitData) : Fr (fun i k => i = id ∧ k = idx) db (db.setUnit id idx d) := by
  cases hn : db.node id with
  | unit lits dp nl l r =>
    refine ⟨fun i => ?_, fun i k h => ?_⟩
    · rw [setUnit_node hn]
      by_cases hi : i = id
      · rw [if_pos hi, hi, hn]; rfl
      · rw [if_neg hi]
    · rw [setUnit_node hn]
      by_cases hi : i = id
      · rw [if_pos hi, hi, hn]
        have hk : idx ≠ k := fun e => h ⟨hi, e.symm⟩
        simp only [Node.outData, List.getElem?_set_ne hk]
      · rw [if_neg hi]
  | _ =>
    have : db.setUnit id idx d = db := by unfold Db.setUnit; rw [hn]
    rw [this]; exact Fr.refl _ _

/-- The ids of children are smaller. -/
def Down (db : Db) : Prop := ∀ i l r, (db.node i).shape = .inner l r → l.id < i ∧ r.id < i

theorem Fr.down {Q : Nat → Nat → Prop} {a b : Db} (h : Fr Q a b) (hd : Down a) : Down b :=
  fun i l r hs => hd i l r (by rw [← h.shape i]; exact hs)

variable {VM : Type} [ManageVars VM]

theorem getOlit_frame {st st' : St VM} {id idx : Nat} {l : Lit} (h : getOlit st id idx = some (l, st')) :
    Fr (fun i k => i = id ∧ k = idx) st.db st'.db := by
  unfold getOlit at h
  cases hu : st.db.unitData id idx with
  | none => rw [hu] at h; cases h
  | some d =>
    rw [hu] at h
    cases d with
    | none => cases h; exact Fr.setUnit _ _ _ _
    | lit l s => cases h; exact Fr.refl _ _

theorem encodeUnweighted_frame {st st' : St VM} {id idx : Nat} {l : Lit} {sem : Semantics} {p : Pre}
    (h : encodeUnweighted st id idx l sem p = some st') : Fr (fun i k => i = id ∧ k = idx) st.db st'.db := by
  unfold encodeUnweighted at h
  cases hu : st.db.unitData id idx with
  | none => rw [hu] at h; cases h
  | some d =>
    rw [hu] at h
    simp only at h
    cases hm : d.missingSemantics sem with
    | none => rw [hm] at h; cases h
    | some m =>
      rw [hm] at h
      simp only at h
      split at h
      · split at h
        · cases h; exact Fr.setUnit _ _ _ _
        · cases h
      · cases h

/-- What a call may change. -/
def Below (id idx : Nat) (i k : Nat) : Prop := i < id ∨ (i = id ∧ k = idx)

theorem runRequests_frame {f : St VM → Nat → Nat → Semantics → Option (Lit × St VM)} {id : Nat}
    (hf : ∀ st i idx sem l st', Down st.db → f st i idx sem = some (l, st') → Fr (Below i idx) st.db st'.db) :
    ∀ (reqs : List (Nat × Nat × Semantics)) (st st' : St VM), Down st.db → (∀ q ∈ reqs, q.1 < id) →
    runRequests f reqs st = some st' → Fr (fun i _ => i < id) st.db st'.db := by
  intro reqs
  induction reqs with
  | nil => intro st st' _ _ h; cases h; exact Fr.refl _ _
  | cons q reqs ih =>
    intro st st' hd hq h
    obtain ⟨i, idx, sem⟩ := q
    unfold runRequests at h
    cases h1 : f st i idx sem with
    | none => rw [h1] at h; cases h
    | some r =>
      obtain ⟨l, st1⟩ := r
      rw [h1] at h
      have hi : i < id := hq (i, idx, sem) (by simp)
      have h2 : Fr (fun j _ => j < id) st.db st1.db := (hf st i idx sem l st1 hd h1).mono fun j k hb => by
        rcases hb with hb | ⟨hb, -⟩
        · exact Nat.lt_trans hb hi
        · subst hb; exact hi
      exact h2.trans (ih st1 st' (h2.down hd) (fun q hq' => hq q (by simp [hq'])) h)

theorem defineUnweighted_frame : ∀ (fuel : Nat) (st : St VM) (id idx : Nat) (sem : Semantics) (l : Lit) (st' : St VM), Down st.db →
    defineUnweighted fuel st id idx sem = some (l, st') → Fr (Below id idx) st.db st'.db := by
  intro fuel
  induction fuel with
  | zero => intro st id idx sem l st' _ h; cases h
  | succ fuel ih =>
    intro st id idx sem l st' hd h
    have hself : ∀ {a b : Db}, Fr (fun i k => i = id ∧ k = idx) a b → Fr (Below id idx) a b :=
      fun h => h.mono fun i k hik => Or.inr hik
    have hlow : ∀ {a b : Db}, Fr (fun i _ => i < id) a b → Fr (Below id idx) a b := fun h => h.mono fun i k hik => Or.inl hik
    have hpre : ∀ o, precond st.db id idx sem = o →
        (∀ con, o = .pass con → con.id < id) ∧ ∀ p, o = .cont p → p.lcon.id < id ∧ p.rcon.id < id := by
      intro o ho
      subst ho
      unfold precond
      cases hn : st.db.node id with
      | unit lits dp nl lc rc =>
        have hc := hd id lc rc (by rw [hn]; rfl)
        simp only
        cases lits[idx]? with
        | none => exact ⟨fun _ h => (by cases h), fun _ h => (by cases h)⟩
        | some d =>
          simp only
          split
          · split <;> exact ⟨fun _ h => (by cases h), fun _ h => (by cases h)⟩
          · split
            · refine ⟨fun con h => ?_, fun _ h => (by cases h)⟩
              cases h
              split
              · exact hc.2
              · exact hc.1
            · refine ⟨fun _ h => (by cases h), fun p h => ?_⟩
              cases h
              exact hc
      | _ => exact ⟨fun _ h => (by cases h), fun _ h => (by cases h)⟩
    unfold defineUnweighted at h
    cases hp : precond st.db id idx sem with
    | panic => rw [hp] at h; cases h
    | ret x => rw [hp] at h; cases h; exact Fr.refl _ _
    | pass con =>
      rw [hp] at h
      simp only at h
      have hci := (hpre _ hp).1 con rfl
      cases h1 : defineUnweighted fuel st con.id (conIdx idx con) sem with
      | none => rw [h1] at h; cases h
      | some r =>
        obtain ⟨x, st1⟩ := r
        rw [h1] at h
        simp only at h
        have f1 : Fr (fun i _ => i < id) st.db st1.db := (ih _ _ _ _ _ _ hd h1).mono fun j k hb => by
          rcases hb with hb | ⟨hb, -⟩ <;> omega
        cases h2 : getOlit st1 id idx with
        | none => rw [h2] at h; cases h
        | some r =>
          obtain ⟨y, st2⟩ := r
          rw [h2] at h
          simp only at h
          cases h3 : st2.db.unitData id idx with
          | none => rw [h3] at h; cases h
          | some d =>
            rw [h3] at h
            cases h
            exact ((hlow f1).trans (hself (getOlit_frame h2))).trans (hself (Fr.setUnit _ _ _ _))
    | cont p =>
      rw [hp] at h
      simp only at h
      have hci := (hpre _ hp).2 p rfl
      cases h1 : runRequests (fun st id idx sem => defineUnweighted fuel st id idx sem) (requests st.db p) st with
      | none => rw [h1] at h; cases h
      | some st1 =>
        rw [h1] at h
        simp only at h
        have f1 : Fr (fun i _ => i < id) st.db st1.db := by
          refine runRequests_frame (fun st i idx sem l st' => ih st i idx sem l st') _ _ _ hd ?_ h1
          intro q hq
          unfold requests at hq
          simp only [List.mem_append, List.mem_map] at hq
          rcases hq with ((⟨_, _, rfl⟩ | ⟨_, _, rfl⟩) | ⟨_, _, rfl⟩) | ⟨_, _, rfl⟩
          · exact hci.1
          · exact hci.2
          · exact hci.1
          · exact hci.2
        cases h2 : getOlit st1 id idx with
        | none => rw [h2] at h; cases h
        | some r =>
          obtain ⟨y, st2⟩ := r
          rw [h2] at h
          simp only at h
          cases h3 : encodeUnweighted st2 id idx y sem p with
          | none => rw [h3] at h; cases h
          | some st3 =>
            rw [h3] at h
            cases h
            exact ((hlow f1).trans (hself (getOlit_frame h2))).trans (hself (encodeUnweighted_frame h3))

theorem define_frame {st st' : St VM} {id idx : Nat} {sem : Semantics} {l : Lit} (hd : Down st.db)
    (h : define st id idx sem = some (l, st')) : Fr (Below id idx) st.db st'.db :=
  defineUnweighted_frame _ _ _ _ _ _ _ hd h

theorem Db.WF.down {db : Db} (h : db.WF) : Down db := fun _ _ _ hs => h.children hs

end TotDb

namespace Dpw

/-- An output of a node has a literal. -/
def RootLit (db : Db) (id k : Nat) (l : Lit) : Prop := (db.node id = .leaf l ∧ k = 0) ∨ OutAt db id k (k + 1) l

/-- An output of a node has a literal that follows from the clauses if the value of the node is large. -/
def Good (db : Db) (cls : ClauseSet) (id k : Nat) : Prop :=
  ∃ l, RootLit db id k l ∧ ∀ b, ClauseSet.sat b cls → k + 1 ≤ value db (trueLits b) id → l.holds b = true

theorem RootLit.rel {R : LitData → LitData → Prop} (hR : ∀ x y, R x y → LitKeep x y) {db db' : Db} (hr : DbRel R db db')
    {id k : Nat} {l : Lit} (h : RootLit db id k l) : RootLit db' id k l := by
  rcases h with ⟨h1, h2⟩ | h
  · exact Or.inl ⟨hr.leaf.2 h1, h2⟩
  · exact Or.inr (h.ref hR hr)

theorem Good.rel {R : LitData → LitData → Prop} (hR : ∀ x y, R x y → LitKeep x y) {db db' : Db} (hr : DbRel R db db')
    (hw : db.WF) {cls new : ClauseSet} {id k : Nat} (h : Good db cls id k) : Good db' (cls ++ new) id k := by
  obtain ⟨l, h1, h2⟩ := h
  refine ⟨l, h1.rel hR hr, fun b hb hv => h2 b (((ClauseSet.sat_append _ _ _).1 hb).1) ?_⟩
  rw [hr.value hw] at hv; exact hv

theorem RootLit.inj {db : Db} {id k : Nat} {l l' : Lit} (h : RootLit db id k l) (h' : RootLit db id k l') : l = l' := by
  rcases h with ⟨h1, h2⟩ | ⟨s, h⟩ <;> rcases h' with ⟨h3, h4⟩ | ⟨s', h'⟩
  · rw [h1] at h3; cases h3; rfl
  · rw [h1] at h'; cases h'
  · rw [h3] at h; cases h
  · rw [h] at h'; cases h'; rfl

theorem RootLit.strict {db : Db} (hw : db.WF) {id k : Nat} {l : Lit} (h : RootLit db id k l) {b : Asg} (hb : Strict db b) :
    l.holds b = true ↔ k + 1 ≤ value db (trueLits b) id := by
  rcases h with ⟨h1, rfl⟩ | h
  · rw [value_leaf hw h1]
    unfold trueLits
    cases l.holds b <;> simp
  · exact hb id k (k + 1) l h

theorem HasLit.good {db : Db} (hw : db.WF) {id k : Nat} {l : Lit} (h : HasLit db id k .if_ l) {cls : ClauseSet}
    (hs : SoundIf db cls) : Good db cls id k := by
  refine ⟨l, ?_, fun b hb hv => h.if_ hw rfl hs hb (T := trueLits b) (fun x hx => hx) hv⟩
  rcases h with h | ⟨s, -, h, -⟩
  · exact Or.inl h
  · exact Or.inr ⟨_, h⟩

theorem nodeLit_spec {db : Db} {id k : Nat} (hg : (db.node id).isGeneral = false) (hk : k < (db.node id).maxVal) :
    (∃ l, nodeLit (db.node id) (k + 1) = some (some l) ∧ RootLit db id k l) ∨
    (nodeLit (db.node id) (k + 1) = some none ∧ ¬ ∃ l, RootLit db id k l) := by
  unfold RootLit OutAt
  cases hn : db.node id with
  | leaf l =>
    rw [hn] at hk
    simp only [Node.maxVal] at hk
    have : k = 0 := by omega
    subst this
    exact Or.inl ⟨l, rfl, Or.inl ⟨rfl, rfl⟩⟩
  | unit lits dp nl lc rc =>
    rw [hn] at hk
    simp only [Node.maxVal] at hk
    simp only [nodeLit, Node.outData, Nat.add_sub_cancel, List.getElem?_eq_getElem hk]
    cases hd : lits[k] with
    | none =>
      refine Or.inr ⟨rfl, ?_⟩
      rintro ⟨l, ⟨h, -⟩ | ⟨s, h⟩⟩
      · cases h
      · simp only [Option.map_some, Option.some.injEq, Prod.mk.injEq] at h
        cases h.2
    | lit l s => exact Or.inl ⟨l, rfl, Or.inr ⟨s, rfl⟩⟩
  | general => rw [hn] at hg; cases hg
  | dummy => rw [hn] at hk; simp [Node.maxVal] at hk

variable {VM : Type} [ManageVars VM]

/-- Encoding outputs of the root. -/
theorem encodeOutputs_spec [LawfulVM VM] (root : Nat) : ∀ (oidxs : List Nat) (st : St VM), st.db.WF →
    (st.db.node root).isGeneral = false →
    ∃ st', encodeOutputs root oidxs st = some st' ∧ Step st st' ∧
      (∀ k ∈ oidxs, k < (st.db.node root).maxVal → ∃ l, HasLit st'.db root k .if_ l) ∧
      ∀ k l, RootLit st'.db root k l → RootLit st.db root k l ∨ (k ∈ oidxs ∧ ∃ l', HasLit st'.db root k .if_ l') := by
  intro oidxs
  induction oidxs with
  | nil => intro st _ _; exact ⟨st, rfl, Step.refl st, by simp, fun k l h => Or.inl h⟩
  | cons o oidxs ih =>
    intro st hw hg
    unfold encodeOutputs
    by_cases ho : o ≥ (st.db.node root).maxVal
    · rw [if_pos ho]
      obtain ⟨st', e, s, h1, h2⟩ := ih st hw hg
      refine ⟨st', e, s, fun k hk hlt => ?_, fun k l h => ?_⟩
      · rcases List.mem_cons.1 hk with rfl | hk
        · omega
        · exact h1 k hk hlt
      · rcases h2 k l h with h | ⟨h, h'⟩
        · exact Or.inl h
        · exact Or.inr ⟨by simp [h], h'⟩
    · rw [if_neg ho]
      have hlen : (st.db.node root).len = (st.db.node root).maxVal := by
        cases hn : st.db.node root with
        | general => rw [hn] at hg; cases hg
        | _ => rfl
      obtain ⟨l0, st1, e1, s1, h1, -, -⟩ := define_spec st root o .if_ hw hg (by omega)
      have hf := define_frame hw.down e1
      rw [e1]
      simp only
      have hw1 := s1.ref.wf hw
      have hg1 : (st1.db.node root).isGeneral = false := by rw [(s1.ref.node root).isGeneral]; exact hg
      obtain ⟨st', e, s, h2, h3⟩ := ih st1 hw1 hg1
      refine ⟨st', e, Step.trans hw s1 s, fun k hk hlt => ?_, fun k l h => ?_⟩
      · rcases List.mem_cons.1 hk with rfl | hk
        · exact ⟨l0, h1.ref s.ref⟩
        · exact h2 k hk (by rw [(s1.ref.node root).maxVal]; exact hlt)
      · rcases h3 k l h with h | ⟨h, h'⟩
        · by_cases hk : k = o
          · subst hk; exact Or.inr ⟨by simp, l0, h1.ref s.ref⟩
          · left
            rcases h with ⟨h4, h5⟩ | ⟨sm, h4⟩
            · exact Or.inl ⟨s1.ref.leaf.1 h4, h5⟩
            · refine Or.inr ⟨sm, ?_⟩
              rw [← hf.out root k (by rintro (h | ⟨-, h⟩) <;> omega)]
              exact h4
        · exact Or.inr ⟨by simp [h], h'⟩

/-! The tares -/

theorem tareVal_congr {T T' : Lit → Bool} : ∀ {tares : List Lit}, (∀ t ∈ tares, T t = T' t) → tareVal T tares = tareVal T' tares := by
  intro tares
  induction tares with
  | nil => intro _; rfl
  | cons t ts ih =>
    intro h
    unfold tareVal
    rw [h t (by simp), ih fun x hx => h x (by simp [hx])]

theorem tareVal_true : ∀ (tares : List Lit), tareVal (fun _ => true) tares = 2 ^ tares.length - 1 := by
  intro tares
  induction tares with
  | nil => rfl
  | cons t ts ih =>
    unfold tareVal
    rw [ih, List.length_cons, Nat.pow_succ]
    have := Nat.two_pow_pos ts.length
    simp only [if_true]
    omega

theorem tareVal_take (T : Lit → Bool) : ∀ (tares : List Lit) (p : Nat) (t : Lit), tares[p]? = some t →
    tareVal T (tares.take (p + 1)) = tareVal T (tares.take p) + if T t then 2 ^ p else 0 := by
  intro tares
  induction tares with
  | nil => intro p t h; cases h
  | cons x ts ih =>
    intro p t h
    cases p with
    | zero =>
      simp only [List.getElem?_cons_zero, Option.some.injEq] at h
      subst h
      simp [tareVal]
    | succ p =>
      simp only [List.getElem?_cons_succ] at h
      simp only [List.take_succ_cons, tareVal]
      rw [ih p t h, Nat.pow_succ]
      cases T t <;> simp <;> omega

/-- The assumptions on tares are sound. -/
theorem tareLoop_sound (tares : List Lit) (ub : Nat) (m : Asg) : ∀ (p enf : Nat), p ≤ tares.length → ub ≤ enf → enf < ub + 2 ^ p →
    cubeSat m (tareLoop tares ub p enf) → enf ≤ ub + tareVal (trueLits m) (tares.take p) := by
  intro p
  induction p with
  | zero => intro enf _ h1 h2 _; simp at h2; omega
  | succ p ih =>
    intro enf hp h1 h2 hc
    have hlt : p < tares.length := by omega
    have htk := tareVal_take (trueLits m) tares p tares[p] (List.getElem?_eq_getElem hlt)
    rw [htk]
    unfold tareLoop at hc
    rw [Nat.pow_succ] at h2
    by_cases h3 : ub + 2 ^ p ≤ enf
    · rw [if_pos h3, List.getElem?_eq_getElem hlt] at hc
      have ht : tares[p].holds m = true := hc _ (by simp)
      have : trueLits m tares[p] = true := ht
      rw [this]
      simp only [if_true]
      by_cases h4 : ub = enf - 2 ^ p
      · omega
      · rw [if_neg h4] at hc
        have := ih (enf - 2 ^ p) (by omega) (by omega) (by omega) fun l hl => hc l (by simp [hl])
        omega
    · rw [if_neg h3] at hc
      by_cases h4 : ub = enf
      · omega
      · rw [if_neg h4] at hc
        have := ih enf (by omega) (by omega) (by omega) hc
        omega

/-- Tares can be chosen such that the assumptions hold and nothing else is added. -/
theorem tareLoop_complete (tares : List Lit) (ub : Nat) : ∀ (p enf : Nat), p ≤ tares.length → ub ≤ enf → enf < ub + 2 ^ p →
    ∃ f : Nat → Bool, ∀ m : Asg, (∀ (i : Nat) t, i < p → tares[i]? = some t → t.holds m = f i) →
      cubeSat m (tareLoop tares ub p enf) ∧ ub + tareVal (trueLits m) (tares.take p) = enf := by
  intro p
  induction p with
  | zero => intro enf _ h1 h2; exact ⟨fun _ => false, fun m _ => ⟨fun l hl => (by cases hl), by simp at h2; simp [tareVal]; omega⟩⟩
  | succ p ih =>
    intro enf hp h1 h2
    have hlt : p < tares.length := by omega
    rw [Nat.pow_succ] at h2
    -- no further tares
    have zero : ∃ f : Nat → Bool, ∀ m : Asg, (∀ (i : Nat) t, i < p → tares[i]? = some t → t.holds m = f i) →
        tareVal (trueLits m) (tares.take p) = 0 := by
      refine ⟨fun _ => false, fun m hm => ?_⟩
      have : ∀ t ∈ tares.take p, trueLits m t = (fun _ => false) t := by
        intro t ht
        obtain ⟨i, hi, e⟩ := List.mem_take_iff_getElem.1 ht
        exact hm i t (by omega) (by rw [← e]; exact List.getElem?_eq_getElem _)
      rw [tareVal_congr this]
      generalize tares.take p = ts
      induction ts with
      | nil => rfl
      | cons t ts ih2 => unfold tareVal; rw [ih2]; rfl
    unfold tareLoop
    by_cases h3 : ub + 2 ^ p ≤ enf
    · simp only [if_pos h3, List.getElem?_eq_getElem hlt]
      have hrest : ∃ f : Nat → Bool, ∀ m : Asg, (∀ (i : Nat) t, i < p → tares[i]? = some t → t.holds m = f i) →
          cubeSat m (if ub = enf - 2 ^ p then [] else tareLoop tares ub p (enf - 2 ^ p)) ∧
          ub + tareVal (trueLits m) (tares.take p) = enf - 2 ^ p := by
        by_cases h4 : ub = enf - 2 ^ p
        · obtain ⟨f, hf⟩ := zero
          refine ⟨f, fun m hm => ?_⟩
          rw [if_pos h4, hf m hm]
          exact ⟨fun l hl => (by cases hl), by omega⟩
        · rw [if_neg h4]
          exact ih (enf - 2 ^ p) (by omega) (by omega) (by omega)
      obtain ⟨f, hf⟩ := hrest
      refine ⟨fun i => if i = p then true else f i, fun m hm => ?_⟩
      obtain ⟨c1, c2⟩ := hf m fun i t hi ht => by
        have := hm i t (by omega) ht
        simpa [show i ≠ p by omega] using this
      have htp : tares[p].holds m = true := by
        have := hm p tares[p] (by omega) (List.getElem?_eq_getElem hlt)
        simpa using this
      refine ⟨fun l hl => ?_, ?_⟩
      · rcases List.mem_append.1 hl with hl | hl
        · simp at hl; rw [hl]; exact htp
        · exact c1 l hl
      · rw [tareVal_take (trueLits m) tares p tares[p] (List.getElem?_eq_getElem hlt)]
        have : trueLits m tares[p] = true := htp
        rw [this]; simp only [if_true]; omega
    · simp only [if_neg h3]
      have hrest : ∃ f : Nat → Bool, ∀ m : Asg, (∀ (i : Nat) t, i < p → tares[i]? = some t → t.holds m = f i) →
          cubeSat m (if ub = enf then [] else tareLoop tares ub p enf) ∧
          ub + tareVal (trueLits m) (tares.take p) = enf := by
        by_cases h4 : ub = enf
        · obtain ⟨f, hf⟩ := zero
          refine ⟨f, fun m hm => ?_⟩
          rw [if_pos h4, hf m hm]
          exact ⟨fun l hl => (by cases hl), by omega⟩
        · rw [if_neg h4]
          exact ih enf (by omega) (by omega) (by omega)
      obtain ⟨f, hf⟩ := hrest
      refine ⟨fun i => if i = p then false else f i, fun m hm => ?_⟩
      obtain ⟨c1, c2⟩ := hf m fun i t hi ht => by
        have := hm i t (by omega) ht
        simpa [show i ≠ p by omega] using this
      have htp : trueLits m tares[p] = false := by
        show tares[p].holds m = false
        have := hm p tares[p] (by omega) (List.getElem?_eq_getElem hlt)
        simpa using this
      refine ⟨c1, ?_⟩
      rw [tareVal_take (trueLits m) tares p tares[p] (List.getElem?_eq_getElem hlt), htp]
      simpa using c2

end Dpw
end RustSat
