import Verif.Lemmas.Gbmo
import Verif.Lemmas.OptConv
import Verif.Props.Objective
import Verif.Lemmas.Dimacs2
/-
Lemmas about splitting objectives: the objectives of the parts, and the whole of `split`.
-/
namespace RustSat
namespace Gbmo
open GbmoSpec

/-! ### Objectives from distinct clauses -/

theorem addTo_new {α : Type} [DecidableEq α] {m : List (α × Nat)} {k : α} (h : k ∉ m.map (·.1)) (w : Nat) :
    HMap.addTo m k w = m ++ [(k, w)] := by
  rw [HMap.addTo, HMap.insert, HMap.remove_of_not_mem h, HMap.get_of_not_mem h]
  simp

theorem addTo_fold {α : Type} [DecidableEq α] (u : Nat) (l : List α) (m : List (α × Nat))
    (h : (m.map (·.1) ++ l).Nodup) : l.foldl (fun m k => HMap.addTo m k u) m = m ++ l.map fun k => (k, u) := by
  induction l generalizing m with
  | nil => simp
  | cons x l ih =>
    have hx : x ∉ m.map (·.1) := fun hc => by
      rw [List.nodup_append] at h
      exact h.2.2 x hc x (List.mem_cons_self ..) rfl
    rw [List.foldl_cons, addTo_new hx, ih]
    · simp
    · simpa using h

/-- The clauses of an objective. -/
def keys (o : Objective) : List Clause := o.iterSoftCls.map Prod.fst

theorem keys_weighted (off : Int) (sl : List (Lit × Nat)) (sc : List (Clause × Nat)) :
    keys (.weighted off sl sc) = (sl.map (·.1)).map (fun l => [l.neg]) ++ sc.map (·.1) := by
  simp [keys, Objective.iterSoftCls]

theorem keys_unweighted (off : Int) (u : Option Nat) (sl : List Lit) (sc : List Clause) :
    keys (.unweighted off u sl sc) = sl.map (fun l => [l.neg]) ++ sc := by
  simp [keys, Objective.iterSoftCls, Function.comp_def]

theorem toWeighted_nodup {off : Int} {u : Nat} {sl : List Lit} {sc : List Clause}
    (h : (keys (.unweighted off (some u) sl sc)).Nodup) :
    Objective.toWeighted (.unweighted off (some u) sl sc) = .weighted off (sl.map fun l => (l, u)) (sc.map fun c => (c, u)) := by
  rw [keys_unweighted, List.nodup_append] at h
  rw [Objective.toWeighted, addTo_fold, addTo_fold]
  · simp
  · simpa using h.2.1
  · simpa using h.1.of_map

theorem weighted_add {off : Int} {sl : List (Lit × Nat)} {sc : List (Clause × Nat)} {c : Clause} (w : Nat)
    (hc : c ∉ keys (.weighted off sl sc)) :
    (match c with
      | [l] => Objective.weighted off (HMap.addTo sl l.neg w) sc
      | c => .weighted off sl (HMap.addTo sc c w)).iterSoftCls.Perm
    ((Objective.weighted off sl sc).iterSoftCls ++ [(c, w)]) := by
  rw [keys_weighted, List.mem_append, not_or] at hc
  have hsc := addTo_new (k := c) hc.2 w
  rcases c with _ | ⟨l, _ | ⟨k, c⟩⟩
  · simp only [hsc, Objective.iterSoftCls, List.append_assoc]; exact .refl _
  · have : l.neg ∉ sl.map (·.1) := fun h => hc.1 (List.mem_map.2 ⟨l.neg, h, by rw [Lit.neg_neg]⟩)
    simp only [addTo_new this, Objective.iterSoftCls, List.map_append, List.map_cons, List.map_nil, Lit.neg_neg,
      List.append_assoc]
    exact List.Perm.append_left _ List.perm_append_comm
  · simp only [hsc, Objective.iterSoftCls, List.append_assoc]; exact .refl _

theorem increase_new {o : Objective} (hw : o.WF) (hn : (keys o).Nodup) {c : Clause} {w : Nat} (hw0 : 0 < w)
    (hc : c ∉ keys o) : (o.increaseSoftClause w c).iterSoftCls.Perm (o.iterSoftCls ++ [(c, w)]) := by
  have h0 : w ≠ 0 := by omega
  cases o with
  | weighted off sl sc =>
    have := weighted_add w hc
    rcases c with _ | ⟨l, _ | ⟨k, c⟩⟩ <;>
      simpa only [Objective.increaseSoftClause, Objective.increaseSoftLit, if_neg h0] using this
  | unweighted off u sl sc =>
    cases u with
    | none =>
      obtain ⟨rfl, rfl⟩ := hw.1 rfl
      rcases c with _ | ⟨l, _ | ⟨k, c⟩⟩ <;>
        simp [Objective.increaseSoftClause, Objective.increaseSoftLit, if_neg h0, Objective.iterSoftCls, Lit.neg_neg]
    | some u =>
      by_cases hu : w = u
      · subst hu
        rcases c with _ | ⟨l, _ | ⟨k, c⟩⟩ <;>
          simp [Objective.increaseSoftClause, Objective.increaseSoftLit, if_neg h0, Objective.iterSoftCls, Lit.neg_neg]
        rw [← List.append_assoc]
        exact List.perm_middle.trans (List.perm_append_singleton _ _).symm
      · have ht := toWeighted_nodup hn
        have hi : (Objective.weighted off (sl.map fun l => (l, u)) (sc.map fun c => (c, u))).iterSoftCls =
            (Objective.unweighted off (some u) sl sc).iterSoftCls := by
          simp [Objective.iterSoftCls, Function.comp_def]
        have := weighted_add (off := off) (sl := sl.map fun l => (l, u)) (sc := sc.map fun c => (c, u)) (c := c) w (by
          rw [keys, hi]; exact hc)
        rw [hi] at this
        rcases c with _ | ⟨l, _ | ⟨k, c⟩⟩ <;>
          simpa only [Objective.increaseSoftClause, Objective.increaseSoftLit, if_neg h0, if_neg hu, ht] using this

theorem ofClauses_iter (cs : List (Clause × Nat)) (hn : (cs.map Prod.fst).Nodup) (hp : ∀ p ∈ cs, 0 < p.2) :
    (Objective.ofClauses cs).WF ∧ (Objective.ofClauses cs).iterSoftCls.Perm cs := by
  have key : ∀ (cs : List (Clause × Nat)) (o : Objective), o.WF → (keys o ++ cs.map Prod.fst).Nodup → (∀ p ∈ cs, 0 < p.2) →
      (cs.foldl (fun o p => o.increaseSoftClause p.2 p.1) o).WF ∧
      (cs.foldl (fun o p => o.increaseSoftClause p.2 p.1) o).iterSoftCls.Perm (o.iterSoftCls ++ cs) := by
    intro cs
    induction cs with
    | nil => intro o h _ _; exact ⟨h, by simp⟩
    | cons p cs ih =>
      intro o h hn hp
      have h1 : p.1 ∉ keys o := fun hc => by
        rw [List.nodup_append] at hn
        exact hn.2.2 p.1 hc p.1 (by simp) rfl
      have h2 := increase_new h (List.nodup_append.1 hn).1 (hp p (List.mem_cons_self ..)) h1
      rw [List.foldl_cons]
      obtain ⟨g1, g2⟩ := ih (o.increaseSoftClause p.2 p.1) (Objective.increaseSoftClause_spec o h p.2 p.1).1 (by
        refine ((h2.map Prod.fst).append_right _).nodup_iff.2 ?_
        simpa [keys] using hn) fun q hq => hp q (List.mem_cons_of_mem _ hq)
      exact ⟨g1, g2.trans ((h2.append_right _).trans (by simp))⟩
  obtain ⟨h1, h2⟩ := key cs Objective.default (by simp [Objective.default, Objective.WF]) (by
    simpa [keys, Objective.default, Objective.iterSoftCls] using hn) hp
  exact ⟨h1, h2⟩

theorem weighted_keys_nodup {off : Int} {sl : List (Lit × Nat)} {sc : List (Clause × Nat)}
    (h : (Objective.weighted off sl sc).WF) : (keys (.weighted off sl sc)).Nodup := by
  rw [keys_weighted, List.nodup_append]
  refine ⟨h.1.map ?_, h.2.1, ?_⟩
  · intro a b e
    have : a.neg = b.neg := by simpa using e
    rw [← Lit.neg_neg a, this, Lit.neg_neg]
  · rintro c h1 d h2 rfl
    obtain ⟨l, _, rfl⟩ := List.mem_map.1 h1
    obtain ⟨p, hp, e⟩ := List.mem_map.1 h2
    exact h.2.2 p hp (by rw [e]; rfl)

theorem intoSoftCls_weighted {off : Int} {sl : List (Lit × Nat)} {sc : List (Clause × Nat)}
    (h : (Objective.weighted off sl sc).WF) :
    ∃ l, (Objective.weighted off sl sc).intoSoftCls = some (l, off) ∧
      l.Perm (Objective.weighted off sl sc).iterSoftCls := by
  refine ⟨_, rfl, ?_⟩
  show (sl.foldl (fun m p => HMap.insert m [p.1.neg] p.2) sc).Perm _
  rw [insert_fold sl sc h.1 fun p _ q hq e => h.2.2 q hq (by rw [e]; rfl)]
  exact List.perm_append_comm

/-! ### Sorting -/

theorem isort_sorted (l : List (Clause × Nat)) : Ascending (isort (fun p q => decide (p.2 ≤ q.2)) l) := by
  have hins : ∀ (x : Clause × Nat) l, Ascending l → Ascending (isort.ins (fun p q => decide (p.2 ≤ q.2)) x l) := by
    intro x l
    induction l with
    | nil => intro _; simp [isort.ins, Ascending, wts]
    | cons y l ih =>
      intro h
      have h' := List.pairwise_cons.1 h
      rw [isort.ins]
      by_cases hxy : x.2 ≤ y.2
      · rw [if_pos (by simpa using hxy)]
        refine List.pairwise_cons.2 ⟨fun w hw => ?_, h⟩
        rcases List.mem_cons.1 hw with rfl | hw
        · exact hxy
        · exact Nat.le_trans hxy (h'.1 w hw)
      · rw [if_neg (by simpa using hxy)]
        refine List.pairwise_cons.2 ⟨fun w hw => ?_, ih h'.2⟩
        have hperm : ∀ (x : Clause × Nat) l, (isort.ins (fun p q => decide (p.2 ≤ q.2)) x l).Perm (x :: l) := by
          intro x l
          induction l with
          | nil => exact .refl _
          | cons z l ih =>
            rw [isort.ins]
            split
            · exact .refl _
            · exact (List.Perm.cons z ih).trans (List.Perm.swap x z l)
        have := ((hperm x l).map Prod.snd).mem_iff.1 hw
        rcases List.mem_cons.1 this with rfl | hw
        · omega
        · exact h'.1 w hw
  induction l with
  | nil => exact .nil
  | cons x l ih => exact hins x _ ih

theorem ascending_unique {ws vs : List Nat} (h1 : ws.Pairwise (· ≤ ·)) (h2 : vs.Pairwise (· ≤ ·)) (hp : ws.Perm vs) :
    ws = vs := hp.eq_of_pairwise (fun _ _ _ _ h h' => Nat.le_antisymm h h') h1 h2

/-! ### The parts as objectives -/

theorem weightGcd_div {L : List (Clause × Nat)} {g : Nat} (hg : 0 < g) (h : ∀ p ∈ L, g ∣ p.2) :
    weightGcd L = g * weightGcd (L.map fun p => (p.1, p.2 / g)) := by
  induction L with
  | nil => rfl
  | cons p L ih =>
    simp only [weightGcd, List.foldr_cons, List.map_cons] at ih ⊢
    rw [ih fun q hq => h q (List.mem_cons_of_mem _ hq), ← Nat.gcd_mul_left, Nat.mul_div_cancel' (h p (List.mem_cons_self ..))]

theorem weightGcd_perm {L M : List (Clause × Nat)} (h : L.Perm M) : weightGcd L = weightGcd M := by
  induction h with
  | nil => rfl
  | cons p _ ih => simp only [weightGcd, List.foldr_cons] at ih ⊢; rw [ih]
  | swap p q l => simp only [weightGcd, List.foldr_cons]; rw [← Nat.gcd_assoc, ← Nat.gcd_assoc, Nat.gcd_comm q.2]
  | trans _ _ h1 h2 => rw [h1, h2]

theorem scale_div {L : List (Clause × Nat)} {g : Nat} (h : ∀ p ∈ L, g ∣ p.2) :
    scale g (L.map fun p => (p.1, p.2 / g)) = L := by
  induction L with
  | nil => rfl
  | cons p L ih =>
    simp only [scale, List.map_cons] at ih ⊢
    rw [ih fun q hq => h q (List.mem_cons_of_mem _ hq), Nat.mul_div_cancel' (h p (List.mem_cons_self ..))]

theorem scale_perm (g : Nat) {L M : List (Clause × Nat)} (h : L.Perm M) : (scale g L).Perm (scale g M) := h.map _

/-- What holds of the objective of a part. -/
structure LevelOk (L : List (Clause × Nat)) (p : Objective × ObjStats) : Prop where
  wf : p.1.WF
  stats : p.2.nSofts = p.1.nSofts ∧ p.2.weightSum = p.1.weightSum ∧ p.2.minWeight = p.1.minWeight ∧ p.2.maxWeight = p.1.maxWeight
  softs : (scale p.2.multiplier (softs p.1)).Perm L
  unit : weightGcd (GbmoSpec.softs p.1) = 1
  pos : ∀ q ∈ GbmoSpec.softs p.1, 0 < q.2

theorem levelObj_ok {L : List (Clause × Nat)} (hne : L ≠ []) (hn : (L.map Prod.fst).Nodup) (hp : ∀ p ∈ L, 0 < p.2) :
    LevelOk L (levelObj L) ∧ (levelObj L).1.offset = 0 := by
  have hg := weightGcd_pos hne hp
  have hd : ∀ p ∈ L, weightGcd L ∣ p.2 := fun p h => weightGcd_dvd h
  have hpos : ∀ p ∈ L.map fun p => (p.1, p.2 / weightGcd L), 0 < p.2 := by
    intro q hq
    obtain ⟨p, h, rfl⟩ := List.mem_map.1 hq
    exact Nat.div_pos (Nat.le_of_dvd (hp p h) (hd p h)) hg
  obtain ⟨h1, h2⟩ := ofClauses_iter (L.map fun p => (p.1, p.2 / weightGcd L)) (by
    rw [List.map_map]; exact hn) hpos
  refine ⟨⟨h1, ⟨rfl, rfl, rfl, rfl⟩, ?_, ?_, fun q hq => ?_⟩, ?_⟩
  · refine (scale_perm _ h2).trans ?_
    show (scale (weightGcd L) _).Perm L
    rw [scale_div hd]
  · have e := weightGcd_div hg hd
    rw [show weightGcd (GbmoSpec.softs (levelObj L).1) = _ from weightGcd_perm h2]
    exact (Nat.eq_of_mul_eq_mul_left hg (by rw [Nat.mul_one]; exact e.symm))
  · exact hpos q (h2.mem_iff.1 hq)
  · have := DimacsSpec.iterSoftCls_cost (levelObj L).1 (fun _ => false)
    rw [show clsCost (fun _ => false) (levelObj L).1.iterSoftCls = _ from clsCost_perm _ h2] at this
    have h3 := (C21_from_iterators (fun _ => false) [] [] (L.map fun p => (p.1, p.2 / weightGcd L))).2.2.2.2.2
    have h4 : (levelObj L).1.value (fun _ => false) = clsCost (fun _ => false) (L.map fun p => (p.1, p.2 / weightGcd L)) := h3
    rw [h4] at this
    omega

/-! ### The ends that the algorithms find -/

theorem listGcd_wts (L : List (Clause × Nat)) : listGcd (wts L) = weightGcd L := by
  rw [listGcd, wts, List.foldr_map]; rfl

theorem left_lt_of_separated {ws : List Nat} (hpos : ∀ w ∈ ws, 0 < w) {i : Nat} (hi : i + 1 < ws.length)
    (h : Separated (ws.take (i + 1)) (ws.drop (i + 1))) : (ws.take (i + 1)).sum < ws.getD (i + 1) 0 := by
  rw [List.getD_eq_getElem?_getD, List.getElem?_eq_getElem hi]
  have hm : ws[i + 1] ∈ ws.drop (i + 1) := by
    rw [List.mem_iff_getElem]
    exact ⟨0, by rw [List.length_drop]; omega, by simp⟩
  have := h [] [ws[i + 1]] (List.nil_sublist _) (List.singleton_sublist.2 hm) (by
    simpa using hpos _ (List.getElem_mem hi))
  simpa using this

/-- The ends found for a sorted list of clauses. -/
structure EndsSpec (alg : SplitAlg) (maxCombs : Nat) (l : List (Clause × Nat)) (ends : List Nat) : Prop where
  ok : EndsOk l.length 0 ends
  sep : SliceSep (wts l) ends
  sound : ∀ i ∈ ends, IsCut alg (wts l) i
  complete : (alg = .gbmo → 2 ^ l.length ≤ maxCombs) → ∀ i, i + 1 < l.length → IsCut alg (wts l) i → i ∈ ends
  gcd : alg = .gbmo → ∀ i, i + 1 < l.length → IsCut .gcd (wts l) i → i ∈ ends

theorem splitGbmo_spec {alg : SplitAlg} (halg : alg ≠ .bmo) (maxCombs : Nat) {l : List (Clause × Nat)} (hne : l ≠ [])
    (ha : Ascending l) (hpos : ∀ p ∈ l, 0 < p.2) :
    ∃ ends, splitGbmo alg maxCombs l = performSplit l 0 ends ∧ EndsSpec alg maxCombs l ends := by
  have hwpos : ∀ w ∈ wts l, 0 < w := by
    intro w hw
    obtain ⟨p, hp, rfl⟩ := List.mem_map.1 hw
    exact hpos p hp
  have hlen := length_wts l
  have hpots : ∀ e, e ∈ (sumsPotSplits l 0 0).2 ↔ e + 1 < l.length ∧ ((wts l).take (e + 1)).sum < (wts l).getD (e + 1) 0 := by
    intro e
    rw [pots_mem]
    constructor
    · rintro ⟨k, h1, h2, h3⟩
      have : k = e := by omega
      subst this
      exact ⟨h2, by simpa using h3⟩
    · rintro ⟨h1, h2⟩
      exact ⟨e, by omega, h1, by simpa using h2⟩
  obtain ⟨es, h1, h2, h3, h4, h5⟩ := gbmoLoop_spec alg maxCombs l ha (sumsPotSplits l 0 0).2 fun e he => (hpots e).1 he
  have hcut : ∀ i, TakesSplit alg l i ↔ IsCut alg (wts l) i := by
    intro i
    cases alg with
    | bmo => exact absurd rfl halg
    | gcd =>
      simp only [TakesSplit, IsCut, ← drop_wts, listGcd_wts]
      constructor
      · rintro (h | ⟨h, _⟩)
        · exact h
        · cases h
      · exact .inl
    | gbmo => exact ⟨fun h => h.separated, fun h => .inr ⟨rfl, h⟩⟩
  have hpot : ∀ i, i + 1 < l.length → TakesSplit alg l i → i ∈ (sumsPotSplits l 0 0).2 := fun i hi ht =>
    (hpots i).2 ⟨hi, left_lt_of_separated hwpos (by omega) ht.separated⟩
  refine ⟨es, ?_, ?_, ?_, fun i hi => (hcut i).1 (h3 i hi), fun hm i hi hc => ?_, fun _ i hi hc => ?_⟩
  · cases l with
    | nil => exact absurd rfl hne
    | cons p l => rw [splitGbmo]; simp only [h1]
  · refine ⟨List.Pairwise.sublist h2 (pots_sorted ..), fun e he => ⟨Nat.zero_le _, ((hpots e).1 (h2.subset he)).1⟩, ?_⟩
    cases l with
    | nil => exact absurd rfl hne
    | cons p l => simp
  · exact sliceSep_of_separated fun e he => (h3 e he).separated
  · exact h4 hm i (hpot i hi ((hcut i).2 hc)) ((hcut i).2 hc)
  · have ht : ((wts l).take (i + 1)).sum < weightGcd (l.drop (i + 1)) := by
      rw [← listGcd_wts, drop_wts]; exact hc
    exact h5 i (hpot i hi (.inl ht)) ht

theorem splitBmo_spec (maxCombs : Nat) {l : List (Clause × Nat)} (hne : l ≠ []) (ha : Ascending l) (hpos : ∀ p ∈ l, 0 < p.2) :
    ∃ ends, splitBmo l = performSplit l 0 ends ∧ EndsSpec .bmo maxCombs l ends := by
  cases l with
  | nil => exact absurd rfl hne
  | cons p l =>
    refine ⟨_, rfl, ?_⟩
    have e1 : bmoLoop (p :: l) 0 p.2 0 [] = bmoLoop l 1 p.2 p.2 [] := by
      rw [bmoLoop, if_neg (Nat.lt_irrefl _), Nat.zero_add, Nat.zero_add]
    rw [e1]
    have hwl : wts (p :: l) = p.2 :: wts l := rfl
    have hs : ∀ e, ((wts (p :: l)).take (e + 1)).sum = p.2 + ((wts l).take e).sum := fun e => by simp [wts]
    have hlen := length_wts (p :: l)
    rcases bmoLoop_spec l 1 p.2 p.2 [] (Nat.le_refl _) ha with ⟨h1, e, h2, h3, h4⟩ | ⟨more, h1, h2, h3, h4⟩
    · rw [h1]
      have hnb : ¬ Boolean (wts (p :: l)) := fun hb => by
        have := hb e (by rw [hlen]; simpa using h2) h3
        rw [hs] at this
        rw [hwl] at this
        omega
      exact ⟨⟨.nil, fun e he => (by cases he), by simp⟩, fun e he => (by cases he), fun e he => (by cases he),
        fun _ i _ hc => absurd hc.1 hnb, fun h => (by cases h)⟩
    · rw [h1, List.nil_append]
      have hb : Boolean (wts (p :: l)) := by
        intro j hj hlt
        rw [hs]
        exact h4 j (by rw [hlen] at hj; simpa using hj) hlt
      have hm : ∀ i, i ∈ more ↔ i + 1 < (wts (p :: l)).length ∧ (wts (p :: l)).getD i 0 < (wts (p :: l)).getD (i + 1) 0 := by
        intro i
        rw [h3, hlen]
        constructor
        · rintro ⟨e, h5, h6, h7⟩
          have : e = i := by omega
          subst this
          exact ⟨by simpa using h6, h7⟩
        · rintro ⟨h5, h6⟩
          exact ⟨i, by omega, by simpa using h5, h6⟩
      refine ⟨⟨h2, fun e he => ⟨Nat.zero_le _, by rw [← hlen]; exact ((hm e).1 he).1⟩, by simp⟩,
        sliceSep_bmo ha hm fun i hi => hb i ((hm i).1 hi).1 ((hm i).1 hi).2, fun i hi => ⟨hb, ((hm i).1 hi).2⟩,
        fun _ i hi hc => (hm i).2 ⟨by rw [hlen]; exact hi, hc.2⟩, fun h => (by cases h)⟩

/-! ### The whole split -/

theorem splitObjective_weighted (alg : SplitAlg) (maxCombs : Nat) {off : Int} {sl : List (Lit × Nat)} {sc : List (Clause × Nat)}
    (hw : (Objective.weighted off sl sc).WF) (hp : Proper (.weighted off sl sc)) :
    ∃ l ends, l.Perm (softs (.weighted off sl sc)) ∧ l ≠ [] ∧ Ascending l ∧ (l.map Prod.fst).Nodup ∧ (∀ p ∈ l, 0 < p.2) ∧
      EndsSpec alg maxCombs l ends ∧
      splitObjective alg maxCombs (.weighted off sl sc) = some (setLastOffset off ((slices l 0 ends).map levelObj)) := by
  obtain ⟨m, h1, h2⟩ := intoSoftCls_weighted hw
  have h3 : (isort (fun p q => decide (p.2 ≤ q.2)) m).Perm (softs (.weighted off sl sc)) := (isort_perm _ _).trans h2
  have h4 : isort (fun p q => decide (p.2 ≤ q.2)) m ≠ [] := fun h => by
    rw [h] at h3
    exact hp.2 off sl sc rfl (List.nil_perm.1 h3)
  have h5 := isort_sorted m
  have h6 : ((isort (fun p q => decide (p.2 ≤ q.2)) m).map Prod.fst).Nodup := (h3.map _).nodup_iff.2 (weighted_keys_nodup hw)
  have h7 : ∀ p ∈ isort (fun p q => decide (p.2 ≤ q.2)) m, 0 < p.2 := fun p h => hp.1 p (h3.mem_iff.1 h)
  have hs : ∃ ends, (match alg with
        | .bmo => splitBmo (isort (fun p q => decide (p.2 ≤ q.2)) m)
        | .gcd => splitGbmo alg maxCombs (isort (fun p q => decide (p.2 ≤ q.2)) m)
        | .gbmo => splitGbmo alg maxCombs (isort (fun p q => decide (p.2 ≤ q.2)) m)) =
      performSplit (isort (fun p q => decide (p.2 ≤ q.2)) m) 0 ends ∧
      EndsSpec alg maxCombs (isort (fun p q => decide (p.2 ≤ q.2)) m) ends := by
    cases alg with
    | bmo => exact splitBmo_spec maxCombs h4 h5 h7
    | gcd => exact splitGbmo_spec (by decide) maxCombs h4 h5 h7
    | gbmo => exact splitGbmo_spec (by decide) maxCombs h4 h5 h7
  obtain ⟨ends, h8, h9⟩ := hs
  refine ⟨_, ends, h3, h4, h5, h6, h7, h9, ?_⟩
  rw [splitObjective, h1]
  simp only
  rw [performSplit_eq h7 h9.ok] at h8
  cases alg <;> (simp only at h8 ⊢; rw [h8])

/-- The positions of two lists correspond. -/
inductive All2 {α β : Type} (P : α → β → Prop) : List α → List β → Prop where
  | nil : All2 P [] []
  | cons {a b as bs} : P a b → All2 P as bs → All2 P (a :: as) (b :: bs)

theorem All2.length {α β : Type} {P : α → β → Prop} {as : List α} {bs : List β} (h : All2 P as bs) : as.length = bs.length := by
  induction h with
  | nil => rfl
  | cons _ _ ih => simp [ih]

theorem All2.get {α β : Type} {P : α → β → Prop} {as : List α} {bs : List β} (h : All2 P as bs) :
    ∀ (k : Nat) a b, as[k]? = some a → bs[k]? = some b → P a b := by
  induction h with
  | nil => intro k a b h; simp at h
  | cons h _ ih =>
    intro k a b h1 h2
    cases k with
    | zero => simp only [List.getElem?_cons_zero, Option.some.injEq] at h1 h2; subst h1; subst h2; exact h
    | succ k => exact ih k a b h1 h2

theorem All2.mem_right {α β : Type} {P : α → β → Prop} {as : List α} {bs : List β} (h : All2 P as bs) {b : β} (hb : b ∈ bs) :
    ∃ a ∈ as, P a b := by
  induction h with
  | nil => cases hb
  | cons h _ ih =>
    rcases List.mem_cons.1 hb with rfl | hb
    · exact ⟨_, List.mem_cons_self .., h⟩
    · obtain ⟨a, h1, h2⟩ := ih hb
      exact ⟨a, List.mem_cons_of_mem _ h1, h2⟩

theorem setOffset_softs (o : Objective) (i : Int) : softs (o.setOffset i) = softs o := by cases o <;> rfl
theorem setOffset_offset (o : Objective) (i : Int) : (o.setOffset i).offset = i := by cases o <;> rfl

theorem levels_ok {Ls : List (List (Clause × Nat))} (hne : ∀ L ∈ Ls, L ≠ []) (hn : (Ls.flatten.map Prod.fst).Nodup)
    (hp : ∀ p ∈ Ls.flatten, 0 < p.2) (off : Int) : All2 LevelOk Ls (setLastOffset off (Ls.map levelObj)) := by
  induction Ls with
  | nil => exact .nil
  | cons L Ls ih =>
    rw [List.flatten_cons, List.map_append, List.nodup_append] at hn
    have h1 := (levelObj_ok (hne L (List.mem_cons_self ..)) hn.1 fun p h =>
      hp p (List.mem_flatten.2 ⟨L, List.mem_cons_self .., h⟩)).1
    have h2 := ih (fun M hM => hne M (List.mem_cons_of_mem _ hM)) hn.2.1 fun p h => hp p (by
      rw [List.flatten_cons]; exact List.mem_append_right _ h)
    cases Ls with
    | nil =>
      refine .cons ⟨?_, ?_, ?_, ?_, ?_⟩ .nil
      · have := h1.wf
        revert this
        show (levelObj L).1.WF → ((levelObj L).1.setOffset off).WF
        cases (levelObj L).1 <;> exact id
      · have := h1.stats
        revert this
        show _ → (levelObj L).2.nSofts = ((levelObj L).1.setOffset off).nSofts ∧ (levelObj L).2.weightSum = ((levelObj L).1.setOffset off).weightSum ∧
          (levelObj L).2.minWeight = ((levelObj L).1.setOffset off).minWeight ∧ (levelObj L).2.maxWeight = ((levelObj L).1.setOffset off).maxWeight
        cases (levelObj L).1 <;> exact id
      · have := h1.softs
        rw [← setOffset_softs _ off] at this
        exact this
      · have := h1.unit
        rw [← setOffset_softs _ off] at this
        exact this
      · have := h1.pos
        rw [← setOffset_softs _ off] at this
        exact this
    | cons M Ls => exact .cons h1 h2

theorem scale_flatten {Ls : List (List (Clause × Nat))} {r : List (Objective × ObjStats)} (h : All2 LevelOk Ls r) :
    (r.flatMap fun p => scale p.2.multiplier (softs p.1)).Perm Ls.flatten := by
  induction h with
  | nil => exact .refl _
  | cons h _ ih => rw [List.flatMap_cons, List.flatten_cons]; exact h.softs.append ih

theorem clsCost_scale (a : Asg) (m : Nat) (L : List (Clause × Nat)) : clsCost a (scale m L) = m * clsCost a L := by
  induction L with
  | nil => rfl
  | cons p L ih =>
    obtain ⟨c, w⟩ := p
    simp only [scale, List.map_cons, clsCost] at ih ⊢
    rw [ih, Nat.mul_add]
    split <;> simp

theorem LevelOk.cost {L : List (Clause × Nat)} {p : Objective × ObjStats} (h : LevelOk L p) (a : Asg) :
    (clsCost a L : Int) = p.2.multiplier * (p.1.value a - p.1.offset) := by
  rw [← clsCost_perm a h.softs, clsCost_scale, ← DimacsSpec.iterSoftCls_cost]
  exact Int.natCast_mul ..

theorem LevelOk.mult_pos {L : List (Clause × Nat)} {p : Objective × ObjStats} (h : LevelOk L p) (hne : L ≠ [])
    (hp : ∀ p ∈ L, 0 < p.2) : 0 < p.2.multiplier := by
  obtain ⟨q, hq⟩ := List.exists_mem_of_ne_nil L hne
  obtain ⟨x, _, rfl⟩ := List.mem_map.1 (h.softs.mem_iff.2 hq)
  have := hp _ hq
  simp only at this
  exact Nat.pos_of_mul_pos_right this

theorem objValue_cons_succ (o : Objective) (os : List Objective) (k : Nat) (a : Asg) :
    DimacsSpec.objValue (o :: os) (k + 1) a = DimacsSpec.objValue os k a := by
  simp [DimacsSpec.objValue]

theorem lexLt_cons (o : Objective) (os : List Objective) (a b : Asg) :
    LexLt (o :: os) a b ↔ LexLt os a b ∨ ((∀ k, DimacsSpec.objValue os k a = DimacsSpec.objValue os k b) ∧ o.value a < o.value b) := by
  constructor
  · rintro ⟨j, h1, h2⟩
    cases j with
    | zero =>
      refine .inr ⟨fun k => ?_, h1⟩
      have := h2 (k + 1) (Nat.succ_pos _)
      rwa [objValue_cons_succ, objValue_cons_succ] at this
    | succ j =>
      rw [objValue_cons_succ, objValue_cons_succ] at h1
      refine .inl ⟨j, h1, fun k hk => ?_⟩
      have := h2 (k + 1) (Nat.succ_lt_succ hk)
      rwa [objValue_cons_succ, objValue_cons_succ] at this
  · rintro (⟨j, h1, h2⟩ | ⟨h1, h2⟩)
    · refine ⟨j + 1, by rw [objValue_cons_succ, objValue_cons_succ]; exact h1, fun k hk => ?_⟩
      cases k with
      | zero => omega
      | succ k => rw [objValue_cons_succ, objValue_cons_succ]; exact h2 k (by omega)
    · refine ⟨0, h2, fun k hk => ?_⟩
      cases k with
      | zero => omega
      | succ k => rw [objValue_cons_succ, objValue_cons_succ]; exact h1 k

theorem agree_iff {Ls : List (List (Clause × Nat))} {r : List (Objective × ObjStats)} (h : All2 LevelOk Ls r)
    (hm : ∀ p ∈ r, 0 < p.2.multiplier) (a b : Asg) :
    (∀ M ∈ Ls, clsCost a M = clsCost b M) ↔
      ∀ k, DimacsSpec.objValue (r.map Prod.fst) k a = DimacsSpec.objValue (r.map Prod.fst) k b := by
  induction h with
  | nil => simp [DimacsSpec.objValue]
  | @cons L p Ls r h _ ih =>
    have hp := hm p (List.mem_cons_self ..)
    have ih := ih fun q hq => hm q (List.mem_cons_of_mem _ hq)
    have h1 := h.cost a
    have h2 := h.cost b
    have hv : clsCost a L = clsCost b L ↔ p.1.value a = p.1.value b := by
      constructor
      · intro e
        rw [e, h2] at h1
        have := Int.eq_of_mul_eq_mul_left (by omega) h1
        omega
      · intro e
        rw [e, ← h2] at h1
        omega
    constructor
    · intro hc k
      cases k with
      | zero => exact hv.1 (hc L (List.mem_cons_self ..))
      | succ k =>
        rw [List.map_cons, objValue_cons_succ, objValue_cons_succ]
        exact ih.1 (fun M hM => hc M (List.mem_cons_of_mem _ hM)) k
    · intro hc M hM
      rcases List.mem_cons.1 hM with rfl | hM
      · exact hv.2 (hc 0)
      · refine ih.2 (fun k => ?_) M hM
        have := hc (k + 1)
        rwa [List.map_cons, objValue_cons_succ, objValue_cons_succ] at this

theorem partLt_iff {Ls : List (List (Clause × Nat))} {r : List (Objective × ObjStats)} (h : All2 LevelOk Ls r)
    (hm : ∀ p ∈ r, 0 < p.2.multiplier) (a b : Asg) : PartLt a b Ls ↔ LexLt (r.map Prod.fst) a b := by
  induction h with
  | nil =>
    refine ⟨fun h => h.elim, fun ⟨j, h, _⟩ => ?_⟩
    simp [DimacsSpec.objValue] at h
  | @cons L p Ls r h ht ih =>
    have hp := hm p (List.mem_cons_self ..)
    have hm' : ∀ q ∈ r, 0 < q.2.multiplier := fun q hq => hm q (List.mem_cons_of_mem _ hq)
    rw [PartLt, List.map_cons, lexLt_cons, ih hm', agree_iff ht hm']
    have h1 := h.cost a
    have h2 := h.cost b
    have hv : clsCost a L < clsCost b L ↔ p.1.value a < p.1.value b := by
      have : (clsCost a L : Int) < clsCost b L ↔ p.1.value a < p.1.value b := by
        rw [h1, h2]
        constructor
        · intro hlt
          have := Int.lt_of_mul_lt_mul_left hlt (by omega)
          omega
        · intro hlt
          exact Int.mul_lt_mul_of_pos_left (by omega) (by omega)
      omega
    rw [hv]

theorem objValue_last {Ls : List (List (Clause × Nat))} {r : List (Objective × ObjStats)} (h : All2 LevelOk Ls r) (a : Asg) :
    (clsCost a Ls.flatten : Int) = (r.map fun p => (p.2.multiplier : Int) * (p.1.value a - p.1.offset)).sum := by
  induction h with
  | nil => rfl
  | cons h _ ih =>
    rw [List.flatten_cons, clsCost_append, List.map_cons, List.sum_cons, ← ih, ← h.cost a]
    simp

/-- The parts of the weights. -/
theorem slices_cut {l : List (Clause × Nat)} {start : Nat} {ends : List Nat} (h : EndsOk l.length start ends) (i : Nat) :
    i ∈ ends ↔ i + 1 < l.length ∧ ∃ front back : List (List Nat), front ≠ [] ∧ (slices l start ends).map wts = front ++ back ∧
      start + front.flatten.length = i + 1 := by
  induction ends generalizing start with
  | nil =>
    refine ⟨fun h => (by cases h), fun ⟨hi, front, back, hf, he, hl⟩ => ?_⟩
    rw [slices, List.map_cons, List.map_nil] at he
    cases front with
    | nil => exact absurd rfl hf
    | cons f front =>
      rw [List.cons_append, List.cons.injEq] at he
      obtain ⟨rfl, he⟩ := he
      have : front = [] := (List.append_eq_nil_iff.1 he.symm).1
      subst this
      rw [List.flatten_cons, List.flatten_nil, List.append_nil, length_wts, List.length_drop] at hl
      have := h.2.2
      omega
  | cons e ends ih =>
    have hr := h.2.1 e (List.mem_cons_self ..)
    have hp := List.pairwise_cons.1 h.1
    have hlen : (wts ((l.take (e + 1)).drop start)).length = e + 1 - start := by
      rw [length_wts, List.length_drop, List.length_take]; omega
    rw [List.mem_cons, ih h.tail]
    constructor
    · rintro (rfl | ⟨h1, front, back, hf, he, hl⟩)
      · exact ⟨hr.2, [wts ((l.take (i + 1)).drop start)], (slices l (i + 1) ends).map wts, by simp, rfl, by
          rw [List.flatten_cons, List.flatten_nil, List.append_nil, hlen]; omega⟩
      · refine ⟨h1, wts ((l.take (e + 1)).drop start) :: front, back, by simp, by
          rw [slices, List.map_cons, he]; rfl, ?_⟩
        rw [List.flatten_cons, List.length_append, hlen]; omega
    · rintro ⟨h1, front, back, hf, he, hl⟩
      cases front with
      | nil => exact absurd rfl hf
      | cons f front =>
        rw [slices, List.map_cons, List.cons_append, List.cons.injEq] at he
        obtain ⟨rfl, he⟩ := he
        rw [List.flatten_cons, List.length_append, hlen] at hl
        cases front with
        | nil => left; simp at hl; omega
        | cons f front => exact .inr ⟨h1, f :: front, back, by simp, he, by omega⟩

theorem parts_cutAt {l : List (Clause × Nat)} {ends : List Nat} (h : EndsOk l.length 0 ends) :
    CutAt (· ∈ ends) (wts l) ((slices l 0 ends).map wts) := by
  refine ⟨?_, fun p hp => ?_, fun i hi => ?_⟩
  · have : ((slices l 0 ends).map wts).flatten = wts (slices l 0 ends).flatten := by
      show _ = (slices l 0 ends).flatten.map Prod.snd
      rw [List.map_flatten]; rfl
    rw [this, slices_flatten h, List.drop_zero]
  · obtain ⟨L, hL, rfl⟩ := List.mem_map.1 hp
    intro e
    exact slices_nonempty h L hL (List.map_eq_nil_iff.1 e)
  · show i ∈ ends ↔ _
    rw [slices_cut h]
    rw [length_wts] at hi
    constructor
    · rintro ⟨_, f, b, _, h1, h2⟩
      exact ⟨f, b, h1, by omega⟩
    · rintro ⟨f, b, h1, h2⟩
      refine ⟨hi, f, b, ?_, h1, by omega⟩
      rintro rfl
      simp at h2

theorem hasParts_of {Ls : List (List (Clause × Nat))} {r : List (Objective × ObjStats)} (h : All2 LevelOk Ls r) :
    HasParts r (Ls.map wts) := by
  refine ⟨by rw [List.length_map, h.length], fun k p ws h1 h2 => ?_⟩
  rw [List.getElem?_map] at h2
  cases hL : Ls[k]? with
  | none => rw [hL] at h2; cases h2
  | some L =>
    rw [hL] at h2
    injection h2 with h2
    subst h2
    exact ((h.get k L p hL h1).softs.map _)

theorem setLast_length (off : Int) (l : List (Objective × ObjStats)) : (setLastOffset off l).length = l.length := by
  induction l with
  | nil => rfl
  | cons p l ih =>
    cases l with
    | nil => rfl
    | cons q l => simp only [setLastOffset, List.length_cons] at ih ⊢; omega

theorem setLast_offsets {off : Int} {l : List (Objective × ObjStats)} (h : ∀ p ∈ l, p.1.offset = 0) (hne : l ≠ []) :
    ∃ ps q, setLastOffset off l = ps ++ [q] ∧ (∀ p ∈ ps, p.1.offset = 0) ∧ q.1.offset = off := by
  induction l with
  | nil => exact absurd rfl hne
  | cons p l ih =>
    cases l with
    | nil => exact ⟨[], _, rfl, fun _ h => (by cases h), setOffset_offset ..⟩
    | cons q l =>
      obtain ⟨ps, r, h1, h2, h3⟩ := ih (fun p hp => h p (List.mem_cons_of_mem _ hp)) (by simp)
      refine ⟨p :: ps, r, by rw [setLastOffset, h1]; rfl, fun x hx => ?_, h3⟩
      rcases List.mem_cons.1 hx with rfl | hx
      · exact h x (List.mem_cons_self ..)
      · exact h2 x hx

end Gbmo
end RustSat
