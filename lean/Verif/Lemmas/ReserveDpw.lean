import Verif.Lemmas.ReserveWorld
import Verif.Lemmas.DpwWorld
/-
After reserving, the dynamic polynomial watchdog encodes without using variables.
-/
namespace RustSat
open TotDb Card
variable {VM : Type} [ManageVars VM]

namespace Dpw

/-- No connection in the queue has a limit. -/
def QUnl (q : WeightQ) : Prop := ∀ x ∈ q, ∀ c ∈ x.2, c.lenLimit = none

theorem QUnl.push : ∀ {q : WeightQ} (_ : QUnl q) (w : Nat) {c : NodeCon} (_ : c.lenLimit = none), QUnl (WeightQ.push q w c) := by
  intro q
  induction q with
  | nil =>
    intro _ w c hc x hx d hd
    simp only [WeightQ.push, List.mem_cons, List.not_mem_nil, or_false] at hx
    subst hx
    simp only [List.mem_cons, List.not_mem_nil, or_false] at hd
    subst hd
    exact hc
  | cons y q ih =>
    intro hq w c hc
    obtain ⟨v, cs⟩ := y
    have hq' : QUnl q := fun x hx => hq x (List.mem_cons_of_mem _ hx)
    have hcs : ∀ c ∈ cs, c.lenLimit = none := hq (v, cs) (List.mem_cons_self ..)
    unfold WeightQ.push
    by_cases h1 : w = v
    · rw [if_pos h1]
      intro x hx d hd
      rcases List.mem_cons.1 hx with rfl | hx
      · rcases List.mem_append.1 hd with hd | hd
        · exact hcs d hd
        · simp only [List.mem_cons, List.not_mem_nil, or_false] at hd
          subst hd; exact hc
      · exact hq' x hx d hd
    · rw [if_neg h1]
      by_cases h2 : v < w
      · rw [if_pos h2]
        intro x hx d hd
        rcases List.mem_cons.1 hx with rfl | hx
        · simp only [List.mem_cons, List.not_mem_nil, or_false] at hd
          subst hd; exact hc
        · exact hq x hx d hd
      · rw [if_neg h2]
        intro x hx d hd
        rcases List.mem_cons.1 hx with rfl | hx
        · exact hcs d hd
        · exact ih hq' w hc x hx d hd

theorem litWeightQueue_unl : ∀ (lits : List (Lit × Nat)) (db : Db) (q : WeightQ), Unlimited db → QUnl q →
    QUnl (litWeightQueue lits db q).1 ∧ Unlimited (litWeightQueue lits db q).2 := by
  intro lits
  induction lits with
  | nil => intro db q hu hq; exact ⟨hq, hu⟩
  | cons x lits ih =>
    intro db q hu hq
    unfold litWeightQueue
    exact ih _ _ (hu.insert_leaf x.1) (hq.push x.2 rfl)

/-- No connection has a limit. -/
def LUnl (tops : List (List NodeCon)) : Prop := ∀ cons ∈ tops, ∀ c ∈ cons, c.lenLimit = none

theorem LUnl.modify {tops : List (List NodeCon)} (h : LUnl tops) (i : Nat) {c : NodeCon} (hc : c.lenLimit = none) :
    LUnl (tops.modify i (· ++ [c])) := by
  intro cons hcons d hd
  obtain ⟨j, hj⟩ := List.getElem?_of_mem hcons
  rw [List.getElem?_modify] at hj
  cases hg : tops[j]? with
  | none => rw [hg] at hj; cases hj
  | some cs =>
    rw [hg] at hj
    have hcs := h cs (List.mem_of_getElem? hg)
    by_cases hij : i = j
    · obtain rfl : cs ++ [c] = cons := by simpa [hij] using hj
      rcases List.mem_append.1 hd with hd | hd
      · exact hcs d hd
      · simp only [List.mem_cons, List.not_mem_nil, or_false] at hd
        subst hd; exact hc
    · obtain rfl : cs = cons := by simpa [hij] using hj
      exact hcs d hd

theorem distribute_unl {precDiv skipped : Nat} : ∀ (fuel : Nat) (q : WeightQ) (tops : List (List NodeCon)) (db : Db) (q' : WeightQ)
    (tops' : List (List NodeCon)) (db' : Db), Unlimited db → QUnl q → LUnl tops →
    distribute precDiv skipped fuel q tops db = some (q', tops', db') → Unlimited db' ∧ QUnl q' ∧ LUnl tops' := by
  intro fuel
  induction fuel with
  | zero => intro q tops db q' tops' db' hu hq ht h; unfold distribute at h; cases h; exact ⟨hu, hq, ht⟩
  | succ fuel ih =>
    intro q tops db q' tops' db' hu hq ht h
    cases q with
    | nil => unfold distribute at h; cases h; exact ⟨hu, hq, ht⟩
    | cons y q =>
      obtain ⟨weight, cons⟩ := y
      unfold distribute at h
      split at h
      · obtain ⟨u1, u2⟩ := Unlimited.mergeBalanced (cons := cons) hu (hq (weight, cons) (List.mem_cons_self ..))
        have hq' : QUnl q := fun x hx => hq x (List.mem_cons_of_mem _ hx)
        cases hm : mergeBalanced db cons with
        | mk o db1 =>
          rw [hm] at h u1 u2
          cases o with
          | none => cases h
          | some merged =>
            simp only at h
            have hl := u2 _ rfl
            refine ih _ _ _ _ _ _ u1 ?_ (ht.modify _ hl) h
            split
            · exact hq'.push _ hl
            · exact hq'
      · cases h; exact ⟨hu, hq, ht⟩

theorem mem_insertBy {α : Type} {key : α → Nat} {x y : α} : ∀ {l : List α}, y ∈ insertBy key x l → y = x ∨ y ∈ l := by
  intro l
  induction l with
  | nil => intro h; simpa [insertBy] using h
  | cons z l ih =>
    intro h
    unfold insertBy at h
    split at h
    · simpa using h
    · rcases List.mem_cons.1 h with rfl | h
      · exact Or.inr (List.mem_cons_self ..)
      · rcases ih h with h | h
        · exact Or.inl h
        · exact Or.inr (List.mem_cons_of_mem _ h)

theorem mem_of_sortBy {α : Type} {key : α → Nat} {y : α} : ∀ {l : List α}, y ∈ sortBy key l → y ∈ l := by
  intro l
  induction l with
  | nil => intro h; cases h
  | cons z l ih =>
    intro h
    unfold sortBy at h
    rcases mem_insertBy h with rfl | h
    · exact List.mem_cons_self ..
    · exact List.mem_cons_of_mem _ (ih h)

theorem addTare_unl {cons : List NodeCon} {tares : List Lit} {db : Db} (hu : Unlimited db) (hc : ∀ c ∈ cons, c.lenLimit = none) :
    Unlimited (addTare cons tares db).2 ∧ ∀ c ∈ (addTare cons tares db).1, c.lenLimit = none := by
  unfold addTare
  cases tares with
  | nil => exact ⟨hu, hc⟩
  | cons t ts =>
    refine ⟨hu.insert_leaf t, fun c h => ?_⟩
    rcases List.mem_append.1 h with h | h
    · exact hc c h
    · simp only [List.mem_cons, List.not_mem_nil, or_false] at h
      subst h; rfl

theorem Unlimited.insert_dummy {db : Db} (hu : Unlimited db) : Unlimited (db.insert .dummy).2 := hu.insert fun _ _ h => by cases h

theorem bottoms_unl {qe : Bool} : ∀ (tops : List (List NodeCon)) (tares : List Lit) (last : Option (Nat × Nat)) (db : Db) (ids : List Nat)
    (db' : Db), Unlimited db → LUnl tops → bottoms qe tops tares last db = some (ids, db') → Unlimited db' := by
  intro tops
  induction tops with
  | nil => intro tares last db ids db' hu _ h; unfold bottoms at h; cases h; exact hu
  | cons cons tops ih =>
    intro tares last db ids db' hu ht h
    have ht' : LUnl tops := fun x hx => ht x (List.mem_cons_of_mem _ hx)
    unfold bottoms at h
    simp only at h
    obtain ⟨u1, u2⟩ := addTare_unl (tares := tares) hu (ht cons (List.mem_cons_self ..))
    obtain ⟨u3, u4⟩ := Unlimited.mergeBalanced (db := (addTare cons tares db).2)
      (cons := sortBy (addTare cons tares db).2.conLen (addTare cons tares db).1) u1 (fun c hc => u2 c (mem_of_sortBy hc))
    cases hm : mergeBalanced (addTare cons tares db).2 (sortBy (addTare cons tares db).2.conLen (addTare cons tares db).1) with
    | mk o db1 =>
      rw [hm] at h u3 u4
      cases o with
      | none => cases h
      | some top =>
        simp only at h u3
        have hl := u4 _ rfl
        cases last with
        | none =>
          simp only at h
          split at h
          · exact ih _ _ _ _ _ u3 ht' h
          · cases qe with
            | true =>
              simp only [if_true] at h
              cases h1 : bottoms true tops (tares.drop 1) (some (top.id, top.offset)) db1 with
              | none => rw [h1] at h; cases h
              | some r => rw [h1] at h; cases h; exact ih _ _ _ _ _ u3 ht' h1
            | false =>
              simp only [Bool.false_eq_true, if_false] at h
              split at h
              · cases h
              · rename_i h1
                cases h
                exact ih _ _ _ _ _ ((Unlimited.insert_dummy u3).insert_internal hl rfl) ht' h1
        | some l =>
          obtain ⟨lastId, offset⟩ := l
          simp only at h
          split at h
          · cases h
          · rename_i h1
            cases h
            exact ih _ _ _ _ _ (u3.insert_internal hl rfl) ht' h1

theorem buildStructure_unl {topmost : Bool} {q q' : WeightQ} {precDiv : Nat} {db db' : Db} {vm vm' : VM} {s : Structure} (hu : Unlimited db)
    (hq : QUnl q) (h : buildStructure topmost q precDiv db vm = some (s, q', db', vm')) : Unlimited db' ∧ QUnl q' ∧ s.precDiv = precDiv := by
  unfold buildStructure at h
  simp only at h
  split at h
  · cases h
  · split at h
    · cases h
    · rename_i q1 tops db1 hd
      obtain ⟨u1, u2, u3⟩ := distribute_unl _ _ _ _ _ _ _ hu hq (fun cons hc => by
        rw [(List.mem_replicate.1 hc).2]; intro c h; cases h) hd
      split at h
      · split at h
        · cases h; exact ⟨u1, u2, rfl⟩
        · cases h
      · split at h
        · cases h
        · rename_i ids db2 hb
          cases h
          exact ⟨bottoms_unl _ _ _ _ _ _ u1 u3 hb, u2, rfl⟩

theorem extraBuckets_unl : ∀ (ts : List Lit) (next : Nat) (db : Db), Unlimited db → Unlimited (extraBuckets ts next db).2.2 := by
  intro ts
  induction ts with
  | nil => intro next db hu; exact hu
  | cons t ts ih =>
    intro next db hu
    unfold extraBuckets
    simp only
    refine ih _ _ ?_
    unfold pushNode
    exact (hu.insert_leaf t).push fun l r h => by cases h; exact ⟨rfl, rfl⟩

theorem moveBuckets_unl : ∀ (bs : List Nat) (next : Nat) (db : Db) (ids : List (Nat × Nat)) (db' : Db), Unlimited db →
    moveBuckets bs next db = some (ids, db') → Unlimited db' := by
  intro bs
  induction bs with
  | nil => intro next db ids db' hu h; unfold moveBuckets at h; cases h; exact hu
  | cons b bs ih =>
    intro next db ids db' hu h
    unfold moveBuckets at h
    cases hn : db.node b with
    | unit lits dp nl left right =>
      rw [hn] at h
      simp only at h
      split at h
      · cases h
      · rename_i h1
        cases h
        refine ih _ _ _ _ ?_ h1
        unfold pushNode
        refine Unlimited.push ((Sh.set (by rw [hn]; rfl)).unlimited hu) fun l r h => ?_
        cases h
        exact ⟨(hu b left right (by rw [hn]; rfl)).1, rfl⟩
    | _ => rw [hn] at h; cases h

theorem extendVals_sh {left right : NodeCon} {olit : Lit} {val : Nat} : ∀ (rvals : List Nat) (st st' : St VM),
    extendVals left right olit val rvals st = some st' → Sh st.db st'.db := by
  intro rvals
  induction rvals with
  | nil => intro st st' h; unfold extendVals at h; cases h; exact Sh.refl _
  | cons rval rvals ih =>
    intro st st' h
    unfold extendVals at h
    simp only at h
    split at h
    · cases h1 : define st right.id (rval - 1) .if_ with
      | none => rw [h1] at h; cases h
      | some r =>
        obtain ⟨rlit, st1⟩ := r
        rw [h1] at h
        simp only at h
        split at h
        · exact (define_sh h1).trans (ih (addClause st1 _) _ h)
        · cases h2 : define st1 left.id (val - right.map rval - 1) .if_ with
          | none => rw [h2] at h; cases h
          | some r =>
            obtain ⟨llit, st2⟩ := r
            rw [h2] at h
            exact ((define_sh h1).trans (define_sh h2)).trans (ih (addClause st2 _) _ h)
    · exact ih _ _ h

theorem extendOlits_sh {left right : NodeCon} {orm : Nat} : ∀ (l : List (Lit × Nat)) (st st' : St VM),
    extendOlits left right orm l st = some st' → Sh st.db st'.db := by
  intro l
  induction l with
  | nil => intro st st' h; unfold extendOlits at h; cases h; exact Sh.refl _
  | cons x l ih =>
    intro st st' h
    obtain ⟨olit, val⟩ := x
    unfold extendOlits at h
    split at h
    · cases h
    · rename_i st1 h1
      exact (extendVals_sh _ _ _ h1).trans (ih _ _ h)

theorem extendBuckets_sh : ∀ (l : List (Nat × Nat)) (orm : Nat) (st st' : St VM), extendBuckets orm l st = some st' → Sh st.db st'.db := by
  intro l
  induction l with
  | nil => intro orm st st' h; unfold extendBuckets at h; cases h; exact Sh.refl _
  | cons x l ih =>
    intro orm st st' h
    obtain ⟨id, oldLen⟩ := x
    unfold extendBuckets at h
    split at h
    · split at h
      · cases h
      · rename_i st1 h1
        exact (extendOlits_sh _ _ _ h1).trans (ih _ _ _ h)
    · cases h

theorem mergeStructures_unl {bot top s : Structure} {db : Db} {vm : VM} {cls : ClauseSet} {st : St VM} (hu : Unlimited db)
    (h : mergeStructures bot top db vm cls = some (s, st)) : Unlimited st.db ∧ s.precDiv = top.precDiv := by
  unfold mergeStructures at h
  simp only at h
  split at h
  · cases h
  · split at h
    · cases h
    · rename_i ids db1 hm
      split at h
      · cases h
      · rename_i st1 he
        cases h
        exact ⟨(extendBuckets_sh _ _ _ _ he).unlimited (moveBuckets_unl _ _ _ _ _ (extraBuckets_unl _ _ _ hu) hm), rfl⟩

theorem encodeOutputs_sh {root : Nat} : ∀ (l : List Nat) (st st' : St VM), encodeOutputs root l st = some st' → Sh st.db st'.db := by
  intro l
  induction l with
  | nil => intro st st' h; unfold encodeOutputs at h; cases h; exact Sh.refl _
  | cons x l ih =>
    intro st st' h
    unfold encodeOutputs at h
    split at h
    · exact ih _ _ h
    · split at h
      · cases h
      · rename_i h1
        exact (define_sh h1).trans (ih _ _ h)

theorem encodeOutputs_quiet {S : Nat → Nat → Prop} {root : Nat} : ∀ (l : List Nat) (st st' : St VM), st.db.WF → Unlimited st.db → Closed st.db S →
    (∀ v, S root v) → encodeOutputs root l st = some st' → Quiet st st' := by
  intro l
  induction l with
  | nil => intro st st' _ _ _ _ h; unfold encodeOutputs at h; cases h; exact Quiet.refl _
  | cons x l ih =>
    intro st st' hw hu hc hs h
    unfold encodeOutputs at h
    split at h
    · exact ih _ _ hw hu hc hs h
    · split at h
      · cases h
      · rename_i h1
        have q := define_quiet hw hu hc (hs _) h1
        exact q.trans (ih _ _ (q.2.wf hw) (hu.ref q.2) (hc.ref q.2) hs h)

/-! ### The encoder -/

/-- There are no limits. -/
def Unl (e : Dpw) : Prop := Unlimited e.db ∧ QUnl e.weightQueue

/-- The encoding has the current precision. -/
def Prec (e : Dpw) : Prop := ∀ s, e.structure_ = some s → s.precDiv = e.precDiv

theorem Unl.build {e e' : Dpw} (h : e.Unl) {s : Structure} {vm vm' : VM} (he : e.build vm = some (e', s, vm')) :
    e'.Unl ∧ e'.structure_ = some s ∧ (e.Prec → e'.Prec) ∧ e'.inLits = e.inLits := by
  unfold Dpw.build at he
  cases hs : e.structure_ with
  | some s1 => rw [hs] at he; cases he; exact ⟨h, hs, fun h => h, rfl⟩
  | none =>
    rw [hs] at he
    simp only at he
    cases hb : buildStructure true e.weightQueue e.precDiv e.db vm with
    | none => rw [hb] at he; cases he
    | some r =>
      obtain ⟨s1, q, db, vm1⟩ := r
      rw [hb] at he
      cases he
      obtain ⟨u1, u2, u3⟩ := buildStructure_unl h.1 h.2 hb
      exact ⟨⟨u1, u2⟩, rfl, fun _ s hs => by cases hs; exact u3, rfl⟩

theorem Unl.reserve {e e' : Dpw} (h : e.Unl) {vm vm' : VM} (he : e.reserve vm = some (e', vm')) : e'.Unl ∧ (e.Prec → e'.Prec) := by
  unfold Dpw.reserve at he
  split at he
  · cases he; exact ⟨h, fun h => h⟩
  · cases hb : e.build vm with
    | none => rw [hb] at he; cases he
    | some r =>
      obtain ⟨e1, s, vm1⟩ := r
      rw [hb] at he
      simp only at he
      obtain ⟨u1, -, u3, -⟩ := h.build hb
      split at he
      · cases he
      · rename_i st hv
        cases he
        exact ⟨⟨(reserveVars_sh _ _ _ _ hv).unlimited u1.1, u1.2⟩, u3⟩

theorem Unl.buildOrExtend {e e' : Dpw} (h : e.Unl) {s : Structure} {vm vm' : VM} {cls cls' : ClauseSet}
    (he : e.buildOrExtend vm cls = some (e', s, vm', cls')) : e'.Unl ∧ (e.Prec → e'.Prec) := by
  unfold Dpw.buildOrExtend at he
  cases hs : e.structure_ with
  | none =>
    rw [hs] at he
    simp only at he
    cases hb : e.build vm with
    | none => rw [hb] at he; cases he
    | some r =>
      obtain ⟨e1, s1, vm1⟩ := r
      rw [hb] at he
      cases he
      obtain ⟨u1, -, u3, -⟩ := h.build hb
      exact ⟨u1, u3⟩
  | some s0 =>
    rw [hs] at he
    simp only at he
    split at he
    · split at he
      · cases he
      · rename_i top q db vm1 hb
        obtain ⟨u1, u2, u3⟩ := buildStructure_unl h.1 h.2 hb
        split at he
        · cases he
        · rename_i s1 st hm
          cases he
          obtain ⟨u4, u5⟩ := mergeStructures_unl u1 hm
          exact ⟨⟨u4, u2⟩, fun _ s hs => by cases hs; exact u5.trans u3⟩
    · cases he; exact ⟨h, fun h => h⟩

theorem Unl.encodeUbChange {e e' : Dpw} (h : e.Unl) {r : URange} {vm vm' : VM} {cls cls' : ClauseSet}
    (he : e.encodeUbChange r vm cls = some (e', vm', cls')) : e'.Unl ∧ (e.Prec → e'.Prec) := by
  unfold Dpw.encodeUbChange at he
  simp only at he
  split at he
  · cases he; exact ⟨h, fun h => h⟩
  · split at he
    · cases he
    · rename_i e1 s vm1 cls1 hb
      obtain ⟨u1, u2⟩ := h.buildOrExtend hb
      split at he
      · cases he
      · rename_i st ho
        cases he
        exact ⟨⟨(encodeOutputs_sh _ _ _ ho).unlimited u1.1, u1.2⟩, u2⟩

theorem Unl.encodeUb {e e' : Dpw} (h : e.Unl) {r : URange} {vm vm' : VM} {cls cls' : ClauseSet}
    (he : e.encodeUb r vm cls = some (e', vm', cls')) : e'.Unl ∧ (e.Prec → e'.Prec) :=
  Unl.encodeUbChange (e := { e with db := e.db.resetEncoded .if_ }) ⟨(reset_sh e.db .if_).unlimited h.1, h.2⟩ he

/-- All variables are reserved. -/
def Ready (e : Dpw) : Prop := e.inLits.length ≤ 1 ∨
  ∃ s, e.structure_ = some s ∧ (¬ e.weightQueue.isEmpty ∧ e.precDiv ≤ e.weightQueue.maxWeight → False) ∧ e.db.WF ∧ Unlimited e.db ∧ Rooted e.db s.root

theorem Ready.quiet {e : Dpw} (h : e.Ready) {db : Db} (hk : DbRel LitKeep e.db db) (nv nc : Nat) :
    Ready { e with db := db, nVars := nv, nClauses := nc } := by
  rcases h with h | ⟨s, h1, h2, h3, h4, h5⟩
  · exact Or.inl h
  · exact Or.inr ⟨s, h1, h2, hk.wf h3, h4.ref hk, h5.ref hk⟩

theorem Ready.encodeUbChange {e e' : Dpw} (h : e.Ready) {r : URange} {vm vm' : VM} {cls cls' : ClauseSet}
    (he : e.encodeUbChange r vm cls = some (e', vm', cls')) : e'.Ready ∧ vm' = vm := by
  unfold Dpw.encodeUbChange at he
  simp only at he
  by_cases hc : (Pb.prepareUbRange e.weightSum r).2 ≤ (Pb.prepareUbRange e.weightSum r).1 ∨ e.inLits.length ≤ 1
  · rw [if_pos hc] at he; cases he; exact ⟨h, rfl⟩
  · rw [if_neg hc] at he
    have hr := h
    rcases h with h | ⟨s, h1, h2, h3, h4, S, h5, h6⟩
    · exact absurd (Or.inr h) hc
    · have hb : e.buildOrExtend vm cls = some (e, s, vm, cls) := by
        unfold Dpw.buildOrExtend
        rw [h1]
        simp only
        rw [if_neg h2]
      rw [hb] at he
      simp only at he
      split at he
      · cases he
      · rename_i st ho
        cases he
        have q := encodeOutputs_quiet (S := S) _ _ _ h3 h4 h5 h6 ho
        exact ⟨hr.quiet q.2 _ _, q.1⟩

theorem Ready.encodeUb {e e' : Dpw} (h : e.Ready) {r : URange} {vm vm' : VM} {cls cls' : ClauseSet}
    (he : e.encodeUb r vm cls = some (e', vm', cls')) : e'.Ready ∧ vm' = vm :=
  (h.quiet (reset_rel e.db .if_) e.nVars e.nClauses).encodeUbChange he

theorem ready_reserve [LawfulVM VM] {e e' : Dpw} {vm vm' : VM} {cls : ClauseSet} {ins : List (Lit × Nat)} {own : List Nat}
    (h : e.Inv (ManageVars.nUsed vm) cls ins own) (hu : e.Unl) (hp : e.Prec) (he : e.reserve vm = some (e', vm')) : e'.Ready := by
  unfold Dpw.reserve at he
  by_cases h0 : e.inLits.length ≤ 1
  · rw [if_pos h0] at he; cases he; exact Or.inl h0
  · rw [if_neg h0] at he
    rw [h.lits] at h0
    obtain ⟨e1, s, vm1, b1, b2, b3, b4, -⟩ := h.build (by omega)
    rw [b1] at he
    simp only at he
    obtain ⟨u1, -, u3, -⟩ := hu.build b1
    have hq : ¬ e1.weightQueue.isEmpty ∧ e1.precDiv ≤ e1.weightQueue.maxWeight → False := by
      rintro ⟨q1, q2⟩
      have ha := b4.after s b2
      have hpr := u3 hp s b2
      cases hw : e1.weightQueue with
      | nil => rw [hw] at q1; exact q1 rfl
      | cons x q =>
        have hx := ha.queue x (by rw [hw]; exact List.mem_cons_self ..)
        rw [hw] at q2
        have q3 : s.precDiv ≤ x.1 := by rw [hpr]; exact q2
        have := (precision_pow ha.pow x.1 hx.1).1 q3
        omega
    cases hv : reserveVars (s.root + 1) (⟨e1.db, vm1, []⟩ : St VM) (NodeCon.full s.root) with
    | none => rw [hv] at he; cases he
    | some st =>
      rw [hv] at he
      cases he
      obtain ⟨w1, w2, w3⟩ := rooted_reserve (st := ⟨e1.db, vm1, []⟩) b4.wf u1.1 rfl rfl rfl hv
      exact Or.inr ⟨s, b2, hq, w1, w2, w3⟩

end Dpw

namespace DpwWorld

theorem encoded_some {w w' : DpwWorld VM} {r : Option (Dpw × VM × ClauseSet)} {ub : Nat → Prop} (h : w.encoded r ub = some w') :
    ∃ c, r = some (w'.dpw, w'.vm, c) := by
  unfold encoded at h
  cases r with
  | none => cases h
  | some x => obtain ⟨t, vm, cls⟩ := x; cases h; exact ⟨cls, rfl⟩

theorem reserve_some {w w' : DpwWorld VM} (hs : w.step .reserve = some w') : w.dpw.reserve w.vm = some (w'.dpw, w'.vm) := by
  obtain ⟨c, e⟩ := encoded_some hs
  cases hr : w.dpw.reserve w.vm with
  | none => rw [hr] at e; cases e
  | some x => obtain ⟨t, vm⟩ := x; rw [hr] at e; cases e; rfl

theorem ready_encode {w w' : DpwWorld VM} {op : DpwOp VM} (h : w.dpw.Ready) (hop : isEncode op) (hs : w.step op = some w') :
    w'.dpw.Ready ∧ w'.vm = w.vm := by
  cases op with
  | add => exact hop.elim
  | setPrecision => exact hop.elim
  | reserve => exact hop.elim
  | useVars => exact hop.elim
  | encodeUb r => obtain ⟨c, e⟩ := encoded_some hs; exact h.encodeUb e
  | encodeUbChange r => obtain ⟨c, e⟩ := encoded_some hs; exact h.encodeUbChange e

theorem Reach.unl {R : DpwWorld VM → DpwOp VM → Prop} {w : DpwWorld VM} (h : Reach R w) : w.dpw.Unl := by
  induction h with
  | start lits vm e hn h he =>
    unfold Dpw.new Dpw.ofMap at he
    split at he
    · cases he
    · cases he
      obtain ⟨h1, h2⟩ := Dpw.litWeightQueue_unl (LitMap.ofList lits) Db.empty [] Unlimited.empty (fun x h => by cases h)
      exact ⟨h2, h1⟩
  | default vm => exact ⟨Unlimited.empty, fun x h => by cases h⟩
  | step w w' op _ _ _ hs ih =>
    cases op with
    | add l wt =>
      unfold DpwWorld.step at hs
      simp only at hs
      cases ha : w.dpw.addInput l wt with
      | none => rw [ha] at hs; cases hs; exact ih
      | some e =>
        rw [ha] at hs
        cases hs
        unfold Dpw.addInput at ha
        split at ha
        · cases ha
        · cases ha
          exact ⟨ih.1.insert_leaf l, ih.2.push wt rfl⟩
    | setPrecision d =>
      unfold DpwWorld.step at hs
      simp only at hs
      cases ha : w.dpw.setPrecision d with
      | panic => rw [ha] at hs; cases hs
      | err x => rw [ha] at hs; cases hs; exact ih
      | ok e =>
        rw [ha] at hs
        cases hs
        unfold Dpw.setPrecision at ha
        split at ha
        · cases ha
        · split at ha
          · cases ha
          · cases ha; exact ih
    | useVars => cases hs; exact ih
    | reserve => exact (ih.reserve (reserve_some hs)).1
    | encodeUb r => obtain ⟨c, e⟩ := encoded_some hs; exact (ih.encodeUb e).1
    | encodeUbChange r => obtain ⟨c, e⟩ := encoded_some hs; exact (ih.encodeUbChange e).1

theorem Since.ready [LawfulVM VM] {w w1 w2 : DpwWorld VM} (h : Reach (fun _ _ => True) w) (hp : w.precise) (hs : w.step .reserve = some w1)
    (h2 : Since w1 w2) : Reach (fun _ _ => True) w2 ∧ w2.dpw.Prec ∧ w2.dpw.Ready := by
  have hinv : ∀ {w : DpwWorld VM}, Reach (fun _ _ => True) w → w.dpw.Inv (ManageVars.nUsed w.vm) w.cls w.ins w.own := fun h =>
    (Reach.inv (t := False) (fun h => h.elim) h).inv
  induction h2 with
  | here => exact ⟨.step _ _ .reserve h trivial trivial hs, (h.unl.reserve (reserve_some hs)).2 hp, Dpw.ready_reserve (hinv h) h.unl hp (reserve_some hs)⟩
  | step w3 w4 op _ hn hsp ha hs' ih =>
    obtain ⟨i1, i2, i3⟩ := ih
    refine ⟨.step _ _ _ i1 trivial ha hs', ?_⟩
    cases op with
    | add l wt => exact absurd rfl (hn l wt)
    | setPrecision d => exact absurd rfl (hsp d)
    | useVars vm => cases hs'; exact ⟨i2, i3⟩
    | reserve => exact ⟨(i1.unl.reserve (reserve_some hs')).2 i2, Dpw.ready_reserve (hinv i1) i1.unl i2 (reserve_some hs')⟩
    | encodeUb r =>
      obtain ⟨c, e⟩ := encoded_some hs'
      exact ⟨(i1.unl.encodeUb e).2 i2, (ready_encode (op := .encodeUb r) i3 trivial hs').1⟩
    | encodeUbChange r =>
      obtain ⟨c, e⟩ := encoded_some hs'
      exact ⟨(i1.unl.encodeUbChange e).2 i2, (ready_encode (op := .encodeUbChange r) i3 trivial hs').1⟩

end DpwWorld
end RustSat
