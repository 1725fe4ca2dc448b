import Verif.Lemmas.Mo2Ilp
import Verif.Lemmas.ProofText5
import Verif.Lemmas.Dimacs2
/- Lemmas on the conversion to integer linear programs: the text, unused variables. -/
namespace RustSat
namespace Mo2Ilp
open Ilp ProofText Text

/-! ### The text -/

theorem splitWs_unlines : ∀ ls : List Text, splitWs (Dimacs.unlines ls) = ls.flatMap splitWs
  | [] => rfl
  | l :: ls => by rw [Dimacs.unlines, splitWs_sep (by decide), splitWs_unlines ls, List.flatMap_cons]

theorem splitWs_join {α : Type} {f : α → Text} {xs : List α} (h : ∀ x ∈ xs, Word (f x)) : splitWs (joinSp (xs.map f)) = xs.map f :=
  (Ws.joinWords h).1

theorem splitWs_rows : ∀ rows : List (List Int), (rows.map rowText).flatMap splitWs = rows.flatten.map showInt
  | [] => rfl
  | r :: rows => by
    rw [List.map_cons, List.flatMap_cons, splitWs_rows rows, List.flatten_cons, List.map_append, rowText,
      splitWs_join fun x _ => word_showInt x]

theorem splitWs_replicate (n : Nat) {w : Text} (h : Word w) : splitWs (joinSp (List.replicate n w)) = List.replicate n w := by
  have := splitWs_join (f := fun x : Text => x) (xs := List.replicate n w) fun x hx => by rw [List.eq_of_mem_replicate hx]; exact h
  simpa using this

theorem splitWs_rhs : ∀ cs : List (List Int × Operator × Int),
    (cs.map fun r => r.2.1.text ++ ' ' :: showInt r.2.2).flatMap splitWs =
      (cs.map toRow).flatMap fun c => [c.2.1.word, showInt c.2.2]
  | [] => rfl
  | c :: cs => by
    rw [List.map_cons, List.flatMap_cons, splitWs_rhs cs, List.map_cons, List.flatMap_cons, splitWs_sp,
      splitWs_of_word (word_showInt _)]
    congr 1
    cases h : c.2.1 <;> simp only [toRow, h, Operator.text, Operator.rel, Rel.word] <;> rfl

theorem rows_toRow (cs : List (List Int × Operator × Int)) : (cs.map toRow).flatMap (·.1) = (cs.map (·.1)).flatten := by
  rw [List.flatMap_def, List.map_map]; rfl

theorem fgt_words (p : Program) : splitWs (Dimacs.unlines (p.lines .fgt)) = p.ilp.fgt := by
  have hm : Word "minsum".toList := ⟨by decide, by decide⟩
  have h0 : Word (showNat 0) := word_showNat 0
  have h1 : Word (showNat 1) := word_showNat 1
  have hr : p.constrs.map (fun r => rowText r.1) = (p.constrs.map (·.1)).map rowText := by rw [List.map_map]; rfl
  rw [splitWs_unlines, Program.lines]
  simp only [List.flatMap_append, List.flatMap_cons, List.flatMap_nil, splitWs_rhs, splitWs_rows, hr,
    splitWs_join (fun x _ => word_showNat x), splitWs_replicate _ hm, splitWs_replicate _ h0, splitWs_replicate _ h1,
    List.append_nil, Ilp.fgt, Program.ilp, rows_toRow, List.length_map, show splitWs [] = [] from rfl, List.nil_append, List.append_assoc]
  rfl

theorem bauss_words (p : Program) : splitWs (Dimacs.unlines (p.lines .bauss)) = p.ilp.bauss p.nonZeroConstrs p.nonZeroObjs := by
  have hr : p.constrs.map (fun r => rowText r.1) = (p.constrs.map (·.1)).map rowText := by rw [List.map_map]; rfl
  rw [splitWs_unlines, Program.lines]
  simp only [List.flatMap_append, List.flatMap_cons, List.flatMap_nil, splitWs_rhs, splitWs_rows, hr,
    splitWs_join (fun x _ => word_showNat x),
    List.append_nil, Ilp.bauss, Program.ilp, rows_toRow, List.length_map, show splitWs [] = [] from rfl, List.nil_append, List.append_assoc]

/-! ### The words determine the program -/

theorem showInt_inj {a b : Int} (h : showInt a = showInt b) : a = b := by
  have := congrArg readInt h
  rw [readInt_showInt, readInt_showInt] at this
  exact Option.some.inj this

theorem flatten_inj {α : Type} {n : Nat} : ∀ {a b : List (List α)}, (∀ x ∈ a, x.length = n) → (∀ x ∈ b, x.length = n) →
    a.length = b.length → a.flatten = b.flatten → a = b
  | [], [], _, _, _, _ => rfl
  | x :: a, y :: b, ha, hb, hl, h => by
    rw [List.flatten_cons, List.flatten_cons] at h
    obtain ⟨h1, h2⟩ := List.append_inj h (by rw [ha x (by simp), hb y (by simp)])
    rw [h1, flatten_inj (fun x hx => ha x (by simp [hx])) (fun x hx => hb x (by simp [hx])) (by simpa using hl) h2]

theorem constrs_inj : ∀ {a b : List (List Int × Rel × Int)}, a.map (·.1) = b.map (·.1) →
    (a.map fun c => [c.2.1.word, showInt c.2.2]) = (b.map fun c => [c.2.1.word, showInt c.2.2]) → a = b
  | [], [], _, _ => rfl
  | [], _ :: _, h, _ => by cases h
  | _ :: _, [], h, _ => by cases h
  | (r, o, z) :: a, (r', o', z') :: b, h1, h2 => by
    simp only [List.map_cons, List.cons.injEq] at h1 h2
    have hz := showInt_inj h2.1.2.1
    have ho : o = o' := by cases o <;> cases o' <;> first | rfl | (exact absurd h2.1.1 (by decide))
    rw [h1.1, ho, hz, constrs_inj h1.2 h2.2]

theorem matrix_inj {p q : Ilp} (hp : p.WF) (hq : q.WF) (hv : p.vars = q.vars) (hc : p.constrs.length = q.constrs.length)
    (ho : p.objs.length = q.objs.length) {x y : List Text} (h : (p.objs.flatten).map showInt ++ ((p.constrs.flatMap (·.1)).map showInt ++
      ((p.constrs.flatMap fun c => [c.2.1.word, showInt c.2.2]) ++ x)) = (q.objs.flatten).map showInt ++ ((q.constrs.flatMap (·.1)).map showInt ++
      ((q.constrs.flatMap fun c => [c.2.1.word, showInt c.2.2]) ++ y))) : p = q := by
  have len : ∀ {α : Type} {n : Nat} (l : List (List α)), (∀ x ∈ l, x.length = n) → l.flatten.length = n * l.length := by
    intro α n l
    induction l with
    | nil => intro _; rfl
    | cons a l ih =>
      intro h
      rw [List.flatten_cons, List.length_append, h a (by simp), ih fun x hx => h x (by simp [hx]), List.length_cons, Nat.mul_add]
      omega
  obtain ⟨hp1, hp2⟩ := hp
  obtain ⟨hq1, hq2⟩ := hq
  obtain ⟨h1, h⟩ := List.append_inj h (by rw [List.length_map, List.length_map, len _ hp1, len _ hq1, hv, ho])
  have hp3 : ∀ x ∈ p.constrs.map (·.1), x.length = p.vars := by
    intro x hx; obtain ⟨c, hc, rfl⟩ := List.mem_map.1 hx; exact hp2 c hc
  have hq3 : ∀ x ∈ q.constrs.map (·.1), x.length = q.vars := by
    intro x hx; obtain ⟨c, hc, rfl⟩ := List.mem_map.1 hx; exact hq2 c hc
  simp only [List.flatMap_def] at h
  obtain ⟨h2, h⟩ := List.append_inj h (by rw [List.length_map, List.length_map, len _ hp3, len _ hq3, List.length_map, List.length_map, hv, hc])
  have h4 : ∀ (l : List (List Int × Rel × Int)), ∀ x ∈ l.map fun c => [c.2.1.word, showInt c.2.2], x.length = 2 := by
    intro l x hx; obtain ⟨c, _, rfl⟩ := List.mem_map.1 hx; rfl
  obtain ⟨h3, _⟩ := List.append_inj h (by rw [len _ (h4 _), len _ (h4 _), List.length_map, List.length_map, hc])
  have e1 := flatten_inj hp1 (by rw [hv]; exact hq1) ho ((List.map_inj_right fun _ _ => showInt_inj).1 h1)
  have e2 := flatten_inj hp3 (by rw [hv]; exact hq3) (by simpa using hc) ((List.map_inj_right fun _ _ => showInt_inj).1 h2)
  have e3 := flatten_inj (h4 _) (h4 _) (by simpa using hc) h3
  have e4 := constrs_inj e2 e3
  cases p; cases q
  simp only at hv e1 e4
  rw [hv, e1, e4]

theorem fgt_inj {p q : Ilp} (hp : p.WF) (hq : q.WF) (h : p.fgt = q.fgt) : p = q := by
  simp only [Ilp.fgt, List.map_cons, List.map_nil, List.append_assoc, List.cons_append, List.nil_append, List.cons.injEq] at h
  obtain ⟨h1, h2, h3, h⟩ := h
  have h3 := showNat_inj h3
  obtain ⟨_, h⟩ := List.append_inj h (by simp [h3])
  exact matrix_inj hp hq (showNat_inj h1) (showNat_inj h2) h3 h

theorem bauss_inj {p q : Ilp} {a b c d : Nat} (hp : p.WF) (hq : q.WF) (h : p.bauss a b = q.bauss c d) : p = q ∧ a = c ∧ b = d := by
  simp only [Ilp.bauss, List.map_cons, List.map_nil, List.append_assoc, List.cons_append, List.nil_append, List.cons.injEq] at h
  obtain ⟨h1, h2, h3, h4, h5, h⟩ := h
  refine ⟨matrix_inj hp hq (showNat_inj h1) (showNat_inj h2) (showNat_inj h3) (x := []) (y := []) ?_, showNat_inj h4, showNat_inj h5⟩
  simpa using h

/-! ### Setting unused variables to zero -/

theorem zeroUnused_spec (used : List Nat) : ∀ (vs : List Nat) (s : SatInstance BasicVM), s.Known → (∀ v ∈ vs, v < ManageVars.nUsed s.vm) →
    let t := vs.foldl (zeroUnused used) s
    t.Known ∧ ManageVars.nUsed t.vm = ManageVars.nUsed s.vm ∧ t.pbs = s.pbs ∧
    ∀ a, t.sat a ↔ s.sat a ∧ ∀ v ∈ vs, v ∉ used → a v = false
  | [], s, hk, _ => ⟨hk, rfl, rfl, fun a => by simp⟩
  | v :: vs, s, hk, hv => by
    rw [List.foldl_cons]
    by_cases hu : v ∈ used
    · rw [zeroUnused, if_pos hu]
      obtain ⟨h1, h2, h3, h4⟩ := zeroUnused_spec used vs s hk fun v h => hv v (by simp [h])
      refine ⟨h1, h2, h3, fun a => ?_⟩
      rw [h4 a]
      constructor
      · rintro ⟨g1, g2⟩
        refine ⟨g1, fun w hw hn => ?_⟩
        rcases List.mem_cons.1 hw with rfl | hw
        · exact absurd hu hn
        · exact g2 w hw hn
      · rintro ⟨g1, g2⟩; exact ⟨g1, fun w hw hn => g2 w (by simp [hw]) hn⟩
    · rw [zeroUnused, if_neg hu]
      obtain ⟨c1, _, _, c4⟩ := C17_add_constraints s [Lit.negOf v] (.ub [] 0) (.ub [] 0 0)
      have hn : ManageVars.nUsed (s.addClause [Lit.negOf v]).vm = ManageVars.nUsed s.vm := by
        show ManageVars.nUsed (ManageVars.increaseNextFree s.vm ((Lit.negOf v).var + 1)).2 = _
        rw [LawfulVM.increase, Lit.var_negOf]
        have := hv v (by simp)
        omega
      obtain ⟨h1, h2, h3, h4⟩ := zeroUnused_spec used vs (s.addClause [Lit.negOf v]) (c4 hk).1
        fun w h => by rw [hn]; exact hv w (by simp [h])
      refine ⟨h1, by rw [h2, hn], h3, fun a => ?_⟩
      rw [h4 a, c1 a]
      have hc : Clause.sat a [Lit.negOf v] ↔ a v = false := by simp [Clause.sat]
      rw [hc]
      constructor
      · rintro ⟨⟨g1, g2⟩, g3⟩
        refine ⟨g1, fun w hw hn => ?_⟩
        rcases List.mem_cons.1 hw with rfl | hw
        · exact g2
        · exact g3 w hw hn
      · rintro ⟨g1, g2⟩
        exact ⟨⟨g1, g2 v (by simp) hu⟩, fun w hw hn => g2 w (by simp [hw]) hn⟩

theorem mem_varList (o : Objective) (v : Nat) : v ∈ o.varList ↔ o.hasVar v := by
  cases o with
  | weighted off sl sc => simp [Objective.varList, Objective.hasVar]
  | unweighted off u sl sc => simp [Objective.varList, Objective.hasVar]

theorem multiVarSet_spec {VM : Type} [ManageVars VM] (i : MultiOptInstance VM) :
    i.varSet.Pairwise (· < ·) ∧ ∀ v, v ∈ i.varSet ↔ i.hasVar v := by
  constructor
  · unfold MultiOptInstance.varSet
    generalize (i.constrs.varSet ++ _ : List Nat) = l
    have h1 : (l.eraseDups.mergeSort).Pairwise (fun a b => decide (a ≤ b) = true) :=
      List.pairwise_mergeSort (by simp; omega) (by simp; omega) _
    have h2 : (l.eraseDups.mergeSort).Nodup :=
      (List.mergeSort_perm _ _).nodup_iff.2 (nodup_eraseDups_nat _)
    refine (h1.and h2).imp ?_
    rintro a b ⟨h, h'⟩
    simp at h; omega
  · intro v
    simp only [MultiOptInstance.varSet, (List.mergeSort_perm _ _).mem_iff, List.mem_eraseDups, List.mem_append, List.mem_flatMap,
      (SatInstance.varSet_spec i.constrs).2, mem_varList]
    rfl

/-! ### Removing unused variables -/

theorem reindex_same {m : ReindexVM} {v : Nat} (hv : (m.inMap.lookup v).isSome) : (m.reindex v).2 = m := by
  obtain ⟨w, hw⟩ := Option.isSome_iff_exists.1 hv
  simp only [ReindexVM.reindex, hw]

theorem reindexLits_same {m : ReindexVM} : ∀ (ls : List Lit), (∀ l ∈ ls, (m.inMap.lookup l.var).isSome) → (m.reindexLits ls).2 = m
  | [], _ => rfl
  | l :: ls, h => by
    have : (m.reindexLit l).2 = m := reindex_same (h l (List.mem_cons_self ..))
    simp only [ReindexVM.reindexLits, this]
    exact reindexLits_same ls fun k hk => h k (List.mem_cons_of_mem _ hk)

theorem reindexList_same {α : Type} {m : ReindexVM} {f : ReindexVM → α → α × ReindexVM} : ∀ (xs : List α), (∀ x ∈ xs, (f m x).2 = m) →
    SatInstance.reindexList f m xs = (xs.map fun x => (f m x).1, m)
  | [], _ => rfl
  | x :: xs, h => by
    have := h x (List.mem_cons_self ..)
    simp only [SatInstance.reindexList, this, reindexList_same xs fun k hk => h k (List.mem_cons_of_mem _ hk), List.map_cons]

theorem instReindex_same {VM : Type} {s : SatInstance VM} {m : ReindexVM} (h : ∀ v, s.hasVar v → (m.inMap.lookup v).isSome) :
    (s.reindex m).vm = m := by
  have e1 : (SatInstance.reindexList ReindexVM.reindexLits m s.cnf).2 = m := by
    rw [reindexList_same _ fun c hc => reindexLits_same c fun l hl => h _ (.inl ⟨c, hc, l, hl, rfl⟩)]
  have e2 : (SatInstance.reindexList SatInstance.reindexCard m s.cards).2 = m := by
    rw [reindexList_same _ fun c hc => ?_]
    have := reindexLits_same c.lits fun l hl => h _ (.inr (.inl ⟨c, hc, l, hl, rfl⟩))
    cases c <;> exact this
  have e3 : (SatInstance.reindexList SatInstance.reindexPb m s.pbs).2 = m := by
    rw [reindexList_same _ fun c hc => ?_]
    have := reindexLits_same (c.lits.map (·.1)) fun l hl => by
      obtain ⟨p, hp, rfl⟩ := List.mem_map.1 hl
      exact h _ (.inr (.inr ⟨c, hc, p, hp, rfl⟩))
    cases c <;> exact this
  simp only [SatInstance.reindex, e1, e2, e3]

theorem objReindex_same {o : Objective} {m : ReindexVM} (h : ∀ v, o.hasVar v → (m.inMap.lookup v).isSome) : (o.reindex m).2 = m := by
  cases o with
  | weighted off sl sc =>
    have e1 : (SatInstance.reindexList Objective.reindexWLit m sl).2 = m := by
      have hp : ∀ p ∈ sl, (Objective.reindexWLit m p).2 = m := fun p hp => reindex_same (v := p.1.var) (h _ (.inl ⟨p, hp, rfl⟩))
      rw [reindexList_same _ hp]
    have e2 : (SatInstance.reindexList Objective.reindexWCl m sc).2 = m := by
      rw [reindexList_same _ fun p hp => reindexLits_same p.1 fun l hl => h _ (.inr ⟨p, hp, l, hl, rfl⟩)]
    simp only [Objective.reindex, e1, e2]
  | unweighted off u sl sc =>
    have e1 : (m.reindexLits sl).2 = m := reindexLits_same sl fun l hl => h _ (.inl ⟨l, hl, rfl⟩)
    have e2 : (SatInstance.reindexList ReindexVM.reindexLits m sc).2 = m := by
      rw [reindexList_same _ fun c hc => reindexLits_same c fun l hl => h _ (.inr ⟨c, hc, l, hl, rfl⟩)]
    simp only [Objective.reindex, e1, e2]

theorem fold_keys : ∀ (vs : List Nat) (m : ReindexVM), ∀ u w, (vs.foldl (fun m v => (m.reindex v).2) m).inMap.lookup u = some w →
    u ∈ vs ∨ m.inMap.lookup u = some w
  | [], m, u, w, h => .inr h
  | v :: vs, m, u, w, h => by
    rw [List.foldl_cons] at h
    rcases fold_keys vs _ u w h with h | h
    · exact .inl (List.mem_cons_of_mem _ h)
    · by_cases huv : u = v
      · exact .inl (by simp [huv])
      · refine .inr ?_
        unfold ReindexVM.reindex at h
        cases hl : m.inMap.lookup v with
        | some x => simpa [hl] using h
        | none =>
          simp only [hl, ManageVars.newVar] at h
          rw [ReindexVM.lookup_cons, if_neg huv] at h
          exact h

theorem weightSum_rename (f : Nat → Nat) (o : Objective) : (renameObj f o).weightSum = o.weightSum := by
  have key : ∀ {α β : Type} (g : α → β) (l : List (α × Nat)) (k : Nat),
      (l.map fun p => (g p.1, p.2)).foldl (fun s p => s + p.2) k = l.foldl (fun s p => s + p.2) k := by
    intro α β g l
    induction l with
    | nil => intro k; rfl
    | cons p l ih => intro k; exact ih _
  cases o with
  | weighted off sl sc =>
    simp only [renameObj, Objective.weightSum, Objective.litWeightSum, Objective.clauseWeightSum]
    rw [key (Lit.rename f), key (List.map (Lit.rename f))]
  | unweighted off u sl sc => simp only [renameObj, Objective.weightSum, Objective.litWeightSum, Objective.clauseWeightSum, List.length_map]

theorem nClauses_rename (f : Nat → Nat) (o : Objective) : (renameObj f o).nClauses = o.nClauses := by
  cases o <;> simp [renameObj, Objective.nClauses]

theorem hasVar_rename {f : Nat → Nat} {o : Objective} {w : Nat} (h : (renameObj f o).hasVar w) : ∃ v, o.hasVar v ∧ f v = w := by
  have hv : ∀ l : Lit, (l.rename f).var = f l.var := fun l => Lit.var_mk' _ _
  cases o with
  | weighted off sl sc =>
    rcases h with ⟨p, hp, e⟩ | ⟨p, hp, l, hl, e⟩
    · obtain ⟨q, hq, rfl⟩ := List.mem_map.1 hp
      exact ⟨q.1.var, .inl ⟨q, hq, rfl⟩, by rw [← e, hv]⟩
    · obtain ⟨q, hq, rfl⟩ := List.mem_map.1 hp
      obtain ⟨k, hk, rfl⟩ := List.mem_map.1 hl
      exact ⟨k.var, .inr ⟨q, hq, k, hk, rfl⟩, by rw [← e, hv]⟩
  | unweighted off u sl sc =>
    rcases h with ⟨l, hl, e⟩ | ⟨c, hc, l, hl, e⟩
    · obtain ⟨k, hk, rfl⟩ := List.mem_map.1 hl
      exact ⟨k.var, .inl ⟨k, hk, rfl⟩, by rw [← e, hv]⟩
    · obtain ⟨d, hd, rfl⟩ := List.mem_map.1 hc
      obtain ⟨k, hk, rfl⟩ := List.mem_map.1 hl
      exact ⟨k.var, .inr ⟨d, hd, k, hk, rfl⟩, by rw [← e, hv]⟩

theorem learnObjs_le {V : Nat} : ∀ (os : List Objective) (vm : BasicVM), ManageVars.nUsed vm ≤ V → (∀ o ∈ os, ∀ v, o.hasVar v → v < V) →
    ManageVars.nUsed (os.foldl OptInstance.learnObj vm) ≤ V
  | [], _, h, _ => h
  | o :: os, vm, h, hv => by
    rw [List.foldl_cons]
    refine learnObjs_le os _ ?_ fun o ho => hv o (by simp [ho])
    rw [OptInstance.learnObj]
    cases hm : o.maxVar with
    | none => exact h
    | some mv =>
      simp only
      rw [LawfulVM.increase]
      have := hv o (by simp) mv (maxVar_hasVar hm)
      omega

/-- The instance without unused variables. -/
theorem remove_spec (i : MultiOptInstance BasicVM) (hw : ∀ o ∈ i.objs, o.WF) (hf : i.Fits) :
    let t := prepare .remove i
    ∃ f : Nat → Nat, ∃ K, t.constrs.Known ∧ (∀ o ∈ t.objs, o.WF) ∧ t.Fits ∧ t.objs = i.objs.map (renameObj f) ∧
      ManageVars.nUsed t.decompose.1.vm = max K 1 ∧ (∀ v, i.hasVar v → f v < K) ∧
      (∀ u v, i.hasVar u → i.hasVar v → u < v → f u < f v) ∧ (∀ w, w < K → ∃ v, i.hasVar v ∧ f v = w) ∧
      ∀ b : Asg, t.constrs.sat b ↔ i.constrs.sat fun v => b (f v) := by
  obtain ⟨hs, hv⟩ := multiVarSet_spec i
  obtain ⟨a1, a2, _, a4⟩ := ReindexVM.fold_mono 0 i.varSet hs (.fromNextFree 0) (ReindexVM.inv_fromNextFree 0)
    (by intro u v w x h; simp [ReindexVM.fromNextFree] at h) (by intro u w h; simp [ReindexVM.fromNextFree] at h)
  have hkeys := fold_keys i.varSet (.fromNextFree 0)
  have hdef : MultiOptInstance.reindexVars ReindexVM.default i.varSet =
      i.varSet.foldl (fun m v => (m.reindex v).2) (ReindexVM.fromNextFree 0) := rfl
  simp only [prepare, MultiOptInstance.reindexOrdered, hdef]
  generalize i.varSet.foldl (fun m v => (m.reindex v).2) (ReindexVM.fromNextFree 0) = m at *
  have hmap : ∀ v, i.hasVar v → (m.inMap.lookup v).isSome := fun v h => a4 v ((hv v).2 h)
  have hfn : ∀ v, i.hasVar v → m.inMap.lookup v = some (m.fn v) := fun v h => reindex_fn_of_some (hmap v h)
  have hvm : (i.constrs.reindex m).vm = m := instReindex_same fun v h => hmap v (.inl h)
  have hob : ∀ o ∈ i.objs, (o.reindex m).2 = m := fun o ho => objReindex_same fun v h => hmap v (.inr ⟨o, ho, h⟩)
  have hob1 : ∀ o ∈ i.objs, (o.reindex m).1.WF ∧ (o.reindex m).1 = renameObj m.fn o := by
    intro o ho
    obtain ⟨h1, _, _, _, h5⟩ := objective_reindex_spec o (hw o ho) 0 m a1
    exact ⟨h1, h5 m (by rw [hob o ho]; exact ReindexVM.Ext.refl m) a1⟩
  have hobjs : SatInstance.reindexList MultiOptInstance.reindexObj m i.objs = (i.objs.map (renameObj m.fn), m) := by
    rw [reindexList_same _ hob]
    congr 1
    exact List.map_congr_left fun o ho => (hob1 o ho).2
  obtain ⟨_, _, _, r4, r5, r6⟩ := instance_reindex_spec i.constrs 0 m a1
  obtain ⟨s1, _, _, s4⟩ := instance_reindex_sem i.constrs 0 m a1
  rw [hvm] at s1 r6
  simp only [MultiOptInstance.reindex, hobjs, MultiOptInstance.decompose, hvm]
  have hrange : ∀ o ∈ i.objs.map (renameObj m.fn), ∀ v, o.hasVar v → v < m.nextVar := by
    intro o ho v h
    obtain ⟨q, hq, rfl⟩ := List.mem_map.1 ho
    obtain ⟨u, hu, rfl⟩ := hasVar_rename h
    exact (a1.map u _ (hfn u (.inr ⟨q, hq, hu⟩))).2.1
  obtain ⟨_, mx⟩ := objMaxVar_spec (i.objs.map (renameObj m.fn))
  have hmx : MultiOptInstance.objMaxVar (i.objs.map (renameObj m.fn)) + 1 ≤ max m.nextVar 1 := by
    rcases mx with h | ⟨o, ho, h⟩
    · omega
    · have := hrange o ho _ (maxVar_hasVar h); omega
  have hnf : (ManageVars.newVar (ManageVars.increaseNextFree m (MultiOptInstance.objMaxVar (i.objs.map (renameObj m.fn)) + 1)).2).1 = max m.nextVar 1 := by
    have e : ∀ m : ReindexVM, (ManageVars.newVar m).1 = m.nextVar := fun _ => rfl
    rw [e]
    simp only [ManageVars.increaseNextFree]
    split
    · show MultiOptInstance.objMaxVar (i.objs.map (renameObj m.fn)) + 1 = _
      omega
    · show m.nextVar = _
      omega
  rw [hnf]
  obtain ⟨l1, _⟩ := DimacsSpec.learnObjs_spec (i.objs.map (renameObj m.fn)) (BasicVM.fromNextFree (max m.nextVar 1))
  have l2 := learnObjs_le (V := max m.nextVar 1) (i.objs.map (renameObj m.fn)) (BasicVM.fromNextFree (max m.nextVar 1)) (Nat.le_refl _)
    fun o ho v h => by have := hrange o ho v h; omega
  have e0 : ManageVars.nUsed (BasicVM.fromNextFree (max m.nextVar 1)) = max m.nextVar 1 := rfl
  refine ⟨m.fn, m.nextVar, ?_, ?_, ⟨?_, ?_⟩, rfl, ?_, ?_, ?_, ?_, ?_⟩
  · intro v h
    have : v < m.nextVar := by
      have := s4 v h
      rw [hvm] at this
      exact this
    show v < ManageVars.nUsed ((i.objs.map (renameObj m.fn)).foldl OptInstance.learnObj (BasicVM.fromNextFree (max m.nextVar 1)))
    omega
  · intro o ho
    obtain ⟨q, hq, rfl⟩ := List.mem_map.1 ho
    rw [← (hob1 q hq).2]; exact (hob1 q hq).1
  · intro o ho
    obtain ⟨q, hq, rfl⟩ := List.mem_map.1 ho
    rw [weightSum_rename]; exact hf.1 q hq
  · intro c hc
    have hc : c ∈ (i.constrs.reindex m).pbs := hc
    rw [r6] at hc
    obtain ⟨d, hd, rfl⟩ := List.mem_map.1 hc
    have hwt : ∀ l : List (Lit × Nat), wtotal (l.map fun p => (p.1.rename m.fn, p.2)) = wtotal l := by
      intro l
      induction l with
      | nil => rfl
      | cons p l ih => rw [List.map_cons, wtotal_cons, wtotal_cons, ih]
    have := hf.2 d hd
    cases d <;> (simp only [PbConstraint.rename, PbConstraint.lits] at *; rw [hwt]; exact this)
  · show ManageVars.nUsed (ManageVars.increaseNextFree _ (MultiOptInstance.objMaxVar (i.objs.map (renameObj m.fn)) + 1)).2 = _
    rw [LawfulVM.increase]
    show max (ManageVars.nUsed ((i.objs.map (renameObj m.fn)).foldl OptInstance.learnObj (BasicVM.fromNextFree (max m.nextVar 1)))) _ = _
    omega
  · intro v h; exact (a1.map v _ (hfn v h)).2.1
  · intro u v hu hv' huv
    exact a2 u v _ _ (hfn u hu) (hfn v hv') huv
  · intro w hwk
    obtain ⟨v, hl⟩ := a1.onto w (Nat.zero_le _) hwk
    rcases hkeys v w hl with h | h
    · exact ⟨v, (hv v).1 h, by simp [ReindexVM.fn, hl]⟩
    · simp [ReindexVM.fromNextFree] at h
  · intro b
    exact s1 b

end Mo2Ilp
end RustSat
