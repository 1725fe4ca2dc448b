import Verif.Lemmas.Cover
import Verif.Lemmas.ReserveWorld
/-
Every node with children of the tree of a totalizer is below its root: building trees.
-/
namespace RustSat
namespace TotDb

theorem mergeBalancedRec_built :
    ∀ (fuel : Nat) (db : Db) (cons : List NodeCon) (cum : List Nat) (offset : Nat), cons ≠ [] →
      cons.length ≤ fuel → cum.length = cons.length → cum.Pairwise (· ≤ ·) → (∀ v ∈ cum, offset ≤ v) →
      let r := mergeBalancedRec fuel db cons cum offset
      Built db r.2 (fun i => ∃ c ∈ cons, c.id = i) (· = r.1.id) := by
  intro fuel
  induction fuel with
  | zero =>
    intro db cons cum offset hne hf
    have := List.length_pos_iff.2 hne
    omega
  | succ fuel ih =>
    intro db cons cum offset hne hf hcl hcs hco
    rw [mergeBalancedRec.eq_def]
    match cons, hne with
    | [c], _ => exact (Built.refl _ _).anti fun i hi => by simpa [eq_comm] using hi
    | c1 :: c2 :: cs, _ =>
      simp only
      generalize hcons : c1 :: c2 :: cs = cons at *
      have hcl2 : 2 ≤ cum.length := by rw [hcl, ← hcons]; simp
      have hsp := split_bounds hcl2 hco
      generalize hsd : 1 + ((cum.drop 1).takeWhile fun v =>
        decide (v < (cum.getD (cum.length - 1) 0 - offset) / 2 + offset)).length = split at hsp ⊢
      have hs1 : 1 ≤ split := by omega
      have hL := ih db (cons.take split) (cum.take split) offset
        (by intro h; have := congrArg List.length h; rw [List.length_take, List.length_nil] at this; omega)
        (by rw [List.length_take]; omega) (by rw [List.length_take, List.length_take]; omega)
        (hcs.sublist (List.take_sublist _ _)) (fun v hv => hco v (List.mem_of_mem_take hv))
      simp only at hL
      generalize mergeBalancedRec fuel db (cons.take split) (cum.take split) offset = resL at hL ⊢
      obtain ⟨lcon, db1⟩ := resL
      simp only at hL ⊢
      have hR := ih db1 (cons.drop split) (cum.drop split) (cum.getD (split - 1) 0)
        (by intro h; have := congrArg List.length h; rw [List.length_drop, List.length_nil] at this; omega)
        (by rw [List.length_drop]; omega) (by rw [List.length_drop, List.length_drop]; omega)
        (hcs.sublist (List.drop_sublist _ _))
        (fun v hv => by
          have hsplit : (cum.take split ++ cum.drop split).Pairwise (· ≤ ·) := by
            rw [List.take_append_drop]; exact hcs
          refine (List.pairwise_append.1 hsplit).2.2 _ ?_ v hv
          rw [List.getD_eq_getElem?_getD, List.getElem?_eq_getElem (by omega)]
          simp only [Option.getD_some]
          rw [List.mem_take_iff_getElem]
          exact ⟨split - 1, by omega, rfl⟩)
      simp only at hR
      generalize mergeBalancedRec fuel db1 (cons.drop split) (cum.drop split) (cum.getD (split - 1) 0) = resR at hR ⊢
      obtain ⟨rcon, db2⟩ := resR
      simp only at hR ⊢
      have hm := kept_mergeCons db2 lcon rcon (fun _ => False)
      have h1 := (hL.frame (fun i => ∃ c ∈ cons.drop split, c.id = i)).mono (B := fun i => (∃ c ∈ cons.drop split, c.id = i) ∨ i = lcon.id) fun i hi => hi.symm
      have h2 := (hR.frame (· = lcon.id)).mono (B := fun i => (i = lcon.id ∨ i = rcon.id) ∨ False) fun i hi => by
        rcases hi with h | h
        · exact Or.inl (Or.inr h)
        · exact Or.inl (Or.inl h)
      refine (((h1.trans h2).trans ⟨hm.1, hm.2⟩).mono fun i hi => hi.elim id False.elim).anti fun i hi => ?_
      obtain ⟨c, hc, e⟩ := hi
      rw [← List.take_append_drop split cons] at hc
      rcases List.mem_append.1 hc with hc | hc
      · exact Or.inl ⟨c, hc, e⟩
      · exact Or.inr ⟨c, hc, e⟩

theorem mergeBalanced_built {db : Db} {cons : List NodeCon} (hne : cons ≠ []) :
    ∃ c db', mergeBalanced db cons = (some c, db') ∧ Built db db' (fun i => ∃ c ∈ cons, c.id = i) (· = c.id) := by
  unfold mergeBalanced
  have he : cons.isEmpty = false := by simpa using hne
  rw [he]
  simp only [Bool.false_eq_true, if_false]
  exact ⟨_, _, rfl, mergeBalancedRec_built cons.length db cons (cumWeight db 0 cons) 0 hne (Nat.le_refl _)
    (cumWeight_length db cons 0) (cumWeight_sorted db cons 0) (by simp)⟩

theorem insertLeaf_built (db : Db) (l : Lit) (A : Nat → Prop) : Built db (db.insert (.leaf l)).2 A A := by
  unfold Db.insert
  simp only
  cases db.lookupLeaf.lookup l with
  | some id => exact Built.refl _ _
  | none => exact ⟨kept_append (by simp) (fun l r h => by cases h) (fun _ i h => h), by simp⟩

theorem insertLeaves_built (A : Nat → Prop) : ∀ (lits : List Lit) (db : Db), Built db (insertLeaves db lits).2 A A := by
  intro lits
  induction lits with
  | nil => intro db; exact Built.refl _ _
  | cons l ls ih => intro db; exact (insertLeaf_built db l A).trans (ih _)

theorem insertLeaves_len : ∀ (lits : List Lit) (db : Db), (insertLeaves db lits).1.length = lits.length := by
  intro lits
  induction lits with
  | nil => intro db; rfl
  | cons l ls ih => intro db; simp only [insertLeaves, List.length_cons]; rw [ih]

theorem litTree_built {db : Db} {lits : List Lit} (hne : lits ≠ []) (A : Nat → Prop) :
    ∃ id db', litTree db lits = (some id, db') ∧ Built db db' A (fun i => i = id ∨ A i) := by
  unfold litTree
  have h1 := insertLeaves_built A lits db
  have h2 := insertLeaves_len lits db
  generalize insertLeaves db lits = r at h1 h2 ⊢
  obtain ⟨cons, db1⟩ := r
  simp only at h1 h2 ⊢
  obtain ⟨c, db2, e, h3⟩ := merge_built (db := db1) (cons := cons) (by
    intro h; subst h; exact hne (List.length_eq_zero_iff.1 h2.symm))
  rw [e]
  exact ⟨c.id, db2, rfl, (h1.mono fun i hi => Or.inr hi).trans (h3.frame A)⟩

theorem litTree_nil (db : Db) : litTree db [] = (none, db) := by simp [litTree, insertLeaves, merge]

theorem segTrees_built : ∀ (segs : List (List (Lit × Nat))) (db : Db) (cons : List NodeCon) (db' : Db) (A : Nat → Prop),
    (∀ s ∈ segs, s ≠ []) → segTrees db segs = some (cons, db') → Built db db' A (fun i => (∃ c ∈ cons, c.id = i) ∨ A i) := by
  intro segs
  induction segs with
  | nil => intro db cons db' A _ h; cases h; exact (Built.refl _ _).mono fun i hi => Or.inr hi
  | cons seg segs ih =>
    intro db cons db' A hne h
    rw [segTrees] at h
    obtain ⟨id, db1, e, h1⟩ := litTree_built (db := db) (lits := seg.map (·.1)) (by simpa using hne seg (by simp)) A
    rw [e] at h
    simp only at h
    split at h
    · cases h
    · cases h2 : segTrees db1 segs with
      | none => rw [h2] at h; cases h
      | some x =>
        obtain ⟨cons2, db2⟩ := x
        rw [h2] at h
        cases h
        refine (h1.trans (ih db1 cons2 _ _ (fun s hs => hne s (by simp [hs])) h2)).mono fun i hi => ?_
        rcases hi with ⟨c, hc, e⟩ | rfl | hi
        · exact Or.inl ⟨c, by simp [hc], e⟩
        · exact Or.inl ⟨_, List.mem_cons_self .., rfl⟩
        · exact Or.inr hi

/-- A tree reaching all nodes. -/
structure Tree (db : Db) (root : Option Nat) : Prop where
  cov : CovBy db fun i => root = some i
  real : AllReal db

theorem Tree.empty : Tree Db.empty none := by
  refine ⟨fun i hi => ?_, fun i hi => ?_⟩
  · have := hi.lt; simp [Db.empty] at this
  · simp [Db.empty] at hi

theorem Built.tree {db db' : Db} {root : Option Nat} {A' : Nat → Prop} {r : Nat} (h : Built db db' (fun i => root = some i) A') (ht : Tree db root)
    (hA : ∀ i, A' i → i = r) : Tree db' (some r) :=
  ⟨fun i hi => (h.kept.covers ht.cov i hi).imp id fun x => by rw [hA i x], h.kept.real ht.real⟩

theorem Sh.tree {a b : Db} (h : Sh a b) {root : Option Nat} (ht : Tree a root) : Tree b root := by
  refine ⟨fun i hi => ?_, fun i hi hd => ht.real i (by rw [← h.1]; exact hi) ?_⟩
  · obtain ⟨l, r, hs⟩ := hi
    rcases ht.cov i ⟨l, r, by rw [← h.2 i]; exact hs⟩ with ⟨j, l', r', h1, h2⟩ | h1
    · exact Or.inl ⟨j, l', r', by rw [h.2 j]; exact h1, h2⟩
    · exact Or.inr h1
  · have := h.2 i
    rw [hd] at this
    revert this
    cases a.node i <;> simp [Node.shape]

/-- All nodes with children are below the root. -/
theorem Tree.below {db : Db} (hw : db.WF) {root : Nat} (ht : Tree db (some root)) {D : Nat → Prop} (h0 : D root)
    (hD : ∀ i l r, D i → (db.node i).shape = .inner l r → D l.id ∧ D r.id) {i : Nat} (hi : Inner db i) : D i := by
  have key : ∀ n i, db.nodes.length - i = n → Inner db i → D i := by
    intro n
    induction n using Nat.strongRecOn with
    | ind n ih =>
      intro i hn hi
      rcases ht.cov i hi with ⟨j, l, r, hs, e⟩ | h
      · have hj : j < db.nodes.length := Inner.lt ⟨l, r, hs⟩
        obtain ⟨k1, k2⟩ := hw.children hs
        have hd := ih (db.nodes.length - j) (by omega) j rfl ⟨l, r, hs⟩
        obtain ⟨d1, d2⟩ := hD j l r hd hs
        rcases e with e | e
        · rw [← e]; exact d1
        · rw [← e]; exact d2
      · cases h; exact h0
  exact key _ i rfl hi

end TotDb

open TotDb
variable {VM : Type} [ManageVars VM]

namespace Totalizer

theorem tree_extendTree {t t' : Totalizer} (hu : Tree t.db t.root) (he : t.extendTree = some t') : Tree t'.db t'.root := by
  unfold Totalizer.extendTree at he
  by_cases hb : t.litBuffer = []
  · rw [hb, litTree_nil] at he
    cases he
    exact hu
  · obtain ⟨id, db1, e, h1⟩ := litTree_built (db := t.db) hb (fun i => t.root = some i)
    rw [e] at he
    simp only at he
    cases hr : t.root with
    | none =>
      rw [hr] at he h1 hu
      cases he
      exact h1.tree hu fun i hi => by
        rcases hi with h | h
        · exact h
        · cases h
    | some old =>
      rw [hr] at he h1 hu
      simp only [merge_two] at he
      cases he
      have h2 := kept_mergeCons db1 (NodeCon.offsetWeighted old t.offset 1) (NodeCon.full id) (fun _ => False)
      refine ((h1.mono fun i hi => ?_).trans (⟨h2.1, h2.2⟩ : Built _ _ _ _)).tree hu fun i hi => hi.elim (fun h => h) False.elim
      rcases hi with h | h
      · exact Or.inl (Or.inr h)
      · cases h; exact Or.inl (Or.inl rfl)

theorem tree_defineOutputs {t t' : Totalizer} (hu : Tree t.db t.root) {sem : Semantics} {idxs : List Nat} {vm vm' : VM} {cls cls' : ClauseSet}
    (he : t.defineOutputs sem idxs vm cls = some (t', vm', cls')) : Tree t'.db t'.root := by
  unfold Totalizer.defineOutputs at he
  split at he
  · cases he; exact hu
  · cases h1 : t.extendTree with
    | none => rw [h1] at he; cases he
    | some t1 =>
      rw [h1] at he
      simp only at he
      have u1 := tree_extendTree hu h1
      cases hr : t1.root with
      | none => rw [hr] at he; cases he; exact u1
      | some id =>
        rw [hr] at he
        simp only at he
        cases hd : defineAll (⟨t1.db, vm, cls⟩ : St VM) id sem (idxs.map fun i => i + t1.offset) with
        | none => rw [hd] at he; cases he
        | some st => rw [hd] at he; cases he; rw [← hr]; exact (defineAll_sh _ _ _ hd).tree u1

theorem tree_reserve {t t' : Totalizer} (hu : Tree t.db t.root) {vm vm' : VM} (he : t.reserve vm = some (t', vm')) : Tree t'.db t'.root := by
  unfold Totalizer.reserve at he
  cases h1 : t.extendTree with
  | none => rw [h1] at he; cases he
  | some t1 =>
    rw [h1] at he
    simp only at he
    have u1 := tree_extendTree hu h1
    cases hr : t1.root with
    | none => rw [hr] at he; cases he; exact u1
    | some root =>
      rw [hr] at he
      simp only at he
      cases hv : reserveVars (root + 1) (⟨t1.db, vm, []⟩ : St VM) (NodeCon.full root) with
      | none => rw [hv] at he; cases he
      | some st => rw [hv] at he; cases he; rw [← hr]; exact (reserveVars_sh _ _ _ _ hv).tree u1

end Totalizer

namespace CardWorld

theorem tree_step {w w' : CardWorld VM} {op : CardOp VM} (h : Tree w.tot.db w.tot.root) (hs : w.step op = some w') : Tree w'.tot.db w'.tot.root := by
  cases op with
  | add lits => cases hs; exact h
  | useVars => cases hs; exact h
  | reserve =>
    obtain ⟨c, e⟩ := encoded_some hs
    cases hr : w.tot.reserve w.vm with
    | none => rw [hr] at e; cases e
    | some x =>
      obtain ⟨t, vm⟩ := x
      rw [hr] at e
      cases e
      exact Totalizer.tree_reserve h hr
  | encodeUb r => obtain ⟨c, e⟩ := encoded_some hs; exact Totalizer.tree_defineOutputs (t := { w.tot with db := w.tot.db.resetEncoded .if_ }) ((reset_sh w.tot.db .if_).tree h) e
  | encodeUbChange r => obtain ⟨c, e⟩ := encoded_some hs; exact Totalizer.tree_defineOutputs h e
  | encodeLb r => obtain ⟨c, e⟩ := encoded_some hs; exact Totalizer.tree_defineOutputs (t := { w.tot with db := w.tot.db.resetEncoded .onlyIf }) ((reset_sh w.tot.db .onlyIf).tree h) e
  | encodeLbChange r => obtain ⟨c, e⟩ := encoded_some hs; exact Totalizer.tree_defineOutputs h e
  | encodeBoth r =>
    obtain ⟨c, e⟩ := encoded_some hs
    unfold Totalizer.encodeBoth at e
    cases h1 : w.tot.encodeUbChange r w.vm w.cls with
    | none => rw [h1] at e; cases e
    | some x =>
      obtain ⟨t1, vm1, cls1⟩ := x
      rw [h1] at e
      exact Totalizer.tree_defineOutputs (Totalizer.tree_defineOutputs h h1) e

theorem Reach.tree {R : CardOp VM → Prop} {w : CardWorld VM} (h : Reach R w) : Tree w.tot.db w.tot.root := by
  induction h with
  | start => exact Tree.empty
  | step w w' op _ _ _ hs ih => exact tree_step ih hs

end CardWorld

namespace Gte

/-- The tree of the encoder. -/
def IsTree (t : Gte) : Prop := Tree t.db (t.root.map NodeCon.id)

theorem IsTree.extendTree {t t' : Gte} (hu : t.IsTree) {m : Option Nat} (he : t.extendTree m = some t') : t'.IsTree := by
  unfold Gte.extendTree at he
  simp only at he
  split at he
  · cases he; exact hu
  · cases h1 : segTrees t.db (segments (·.2) (sortBy (·.2) (t.litBuffer.filter (fits m)))) with
    | none => rw [h1] at he; cases he
    | some x =>
      obtain ⟨cons, db⟩ := x
      rw [h1] at he
      simp only at he
      have u1 := segTrees_built _ _ _ _ (fun i => t.root.map NodeCon.id = some i)
        (fun s hs => ((segments_spec (fun x : Lit × Nat => x.2) _).2 s hs).1) h1
      by_cases hne : cons ++ t.root.toList = []
      · rw [hne] at he
        simp [mergeBalanced] at he
      · obtain ⟨con, db2, e, u2⟩ := mergeBalanced_built (db := db) hne
        rw [e] at he
        cases he
        refine ((u1.mono fun i hi => ?_).trans u2).tree hu fun i h => h
        rcases hi with ⟨c, hc, e⟩ | h
        · exact ⟨c, by simp [hc], e⟩
        · cases hr : t.root with
          | none => rw [hr] at h; cases h
          | some c => rw [hr] at h; cases h; exact ⟨c, by simp, rfl⟩

theorem IsTree.sh {t : Gte} (hu : t.IsTree) {db : Db} (h : Sh t.db db) (nv nc : Nat) : IsTree { t with db := db, nVars := nv, nClauses := nc } :=
  h.tree hu

theorem IsTree.encodeUbChange {t t' : Gte} (h : t.IsTree) {r : URange} {vm vm' : VM} {cls cls' : ClauseSet}
    (he : t.encodeUbChange r vm cls = some (t', vm', cls')) : t'.IsTree := by
  unfold Gte.encodeUbChange at he
  simp only at he
  split at he
  · cases he; exact h
  · split at he
    · cases he
    · rename_i t1 h1
      have u1 := h.extendTree h1
      cases hr : t1.root with
      | none => rw [hr] at he; cases he; exact u1
      | some con =>
        rw [hr] at he
        simp only at he
        split at he
        · cases he
        · rename_i st hd
          cases he
          rw [← hr]
          exact u1.sh (defineVals_sh _ _ _ hd) _ _

theorem IsTree.encodeUb {t t' : Gte} (h : t.IsTree) {r : URange} {vm vm' : VM} {cls cls' : ClauseSet}
    (he : t.encodeUb r vm cls = some (t', vm', cls')) : t'.IsTree := (h.sh (reset_sh t.db .if_) t.nVars t.nClauses).encodeUbChange he

theorem IsTree.reserve {t t' : Gte} (h : t.IsTree) {vm vm' : VM} (he : t.reserve vm = some (t', vm')) : t'.IsTree := by
  unfold Gte.reserve at he
  cases h1 : t.extendTree none with
  | none => rw [h1] at he; cases he
  | some t1 =>
    rw [h1] at he
    simp only at he
    have u1 := h.extendTree h1
    cases hr : t1.root with
    | none => rw [hr] at he; cases he; exact u1
    | some con =>
      rw [hr] at he
      simp only at he
      split at he
      · cases he
      · rename_i st hv
        cases he
        rw [← hr]
        exact u1.sh (reserveVars_sh _ _ _ _ hv) t1.nVars t1.nClauses

end Gte

theorem GteWorld.Reach.tree {R : GteOp VM → Prop} {w : GteWorld VM} (h : GteWorld.Reach R w) : w.gte.IsTree := by
  induction h with
  | start => exact Tree.empty
  | step w w' op _ _ _ hs ih =>
    cases op with
    | add lits => cases hs; exact ih
    | rehash => cases hs; exact ih
    | useVars => cases hs; exact ih
    | reserve => exact ih.reserve (reserve_some hs)
    | encodeUb r => obtain ⟨c, e⟩ := encoded_some hs; exact ih.encodeUb e
    | encodeUbChange r => obtain ⟨c, e⟩ := encoded_some hs; exact ih.encodeUbChange e

end RustSat
