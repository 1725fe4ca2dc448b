import Verif.Spec.Shuffle
import Verif.Lemmas.Converters
import Verif.Props.Dimacs
import Verif.Props.VarManager
import Verif.Props.Objective
/-
Lemmas for C80: renaming and shuffling instances.
-/
namespace RustSat
open Dimacs DimacsSpec ShuffleSpec

/-! ### Renamings -/

/-- The inverse of the re-indexing of a `RandReindVarManager`. -/
def RandReindVM.back (m : RandReindVM) (v : Nat) : Nat := (m.reverse v).getD v

theorem renaming_init {n : Nat} {perm : List Nat} (hp : perm.Perm (List.range n)) :
    Renaming n (RandReindVM.init perm).reindex (RandReindVM.init perm).back := by
  have hlen : perm.length = n := by rw [hp.length_eq, List.length_range]
  have hleft : ∀ v, (RandReindVM.init perm).back ((RandReindVM.init perm).reindex v) = v := by
    intro v
    rw [RandReindVM.back, (C20_random n perm hp).1 v, Option.getD_some]
  have habove : ∀ v, n ≤ v → (RandReindVM.init perm).reindex v = v := by
    intro v hv
    have : perm[v]? = none := List.getElem?_eq_none_iff.2 (by omega)
    simp only [RandReindVM.reindex, RandReindVM.init, this, Option.getD_none]
  have hbelow : ∀ v, v < n → (RandReindVM.init perm).reindex v < n := by
    intro v hv
    have h1 : perm[v]? = some (perm[v]'(by omega)) := List.getElem?_eq_getElem (by omega)
    simp only [RandReindVM.reindex, RandReindVM.init, h1, Option.getD_some]
    exact List.mem_range.1 (hp.mem_iff.1 (List.getElem_mem _))
  refine ⟨hleft, fun v => ?_, hbelow, habove⟩
  by_cases hv : v < n
  · obtain ⟨u, hu, e⟩ := List.getElem_of_mem (hp.mem_iff.2 (List.mem_range.2 hv))
    have h1 : (RandReindVM.init perm).reindex u = v := by
      have h1 : perm[u]? = some v := by rw [List.getElem?_eq_getElem hu, e]
      simp only [RandReindVM.reindex, RandReindVM.init, h1, Option.getD_some]
    rw [← h1, hleft]
  · have h1 := habove v (by omega)
    have h2 := hleft v
    rw [h1] at h2
    rw [h2, h1]

theorem ShuffleSpec.Renaming.inj {n : Nat} {f g : Nat → Nat} (h : Renaming n f g) {u v : Nat} (e : f u = f v) : u = v := by
  rw [← h.left u, e, h.left]

theorem reindexLit_eq (m : RandReindVM) : m.reindexLit = Lit.rename m.reindex := rfl

theorem rename_neg (f : Nat → Nat) (l : Lit) : (l.rename f).neg = l.neg.rename f := by
  apply Lit.ext_var
  · rw [Lit.var_neg, Lit.rename, Lit.rename, Lit.var_mk', Lit.var_mk', Lit.var_neg]
  · simp [Lit.rename, Lit.isNeg_mk']

/-! ### Re-indexing -/

section
variable {VM : Type}

theorem sat_randReindex (s : SatInstance VM) (m : RandReindVM) (a : Asg) :
    (s.randReindex m).sat a ↔ s.sat (fun v => a (m.reindex v)) := by
  have h1 : CardConstraint.mapLits m.reindexLit = CardConstraint.rename m.reindex := by
    funext c; cases c <;> rfl
  have h2 : PbConstraint.mapLits m.reindexLit = PbConstraint.rename m.reindex := by
    funext c; cases c <;> rfl
  rw [SatInstance.sat, SatInstance.sat, SatInstance.randReindex, h1, h2, reindexLit_eq]
  simp only [ClauseSet.sat, List.mem_map, forall_exists_index, and_imp, forall_apply_eq_imp_iff₂, Clause.sat_rename,
    CardConstraint.sat_rename, PbConstraint.sat_rename]

theorem objective_randReindex (o : Objective) (h : o.WF) (m : RandReindVM)
    (hi : ∀ u v, m.reindex u = m.reindex v → u = v) : o.randReindex m = renameObj m.reindex o := by
  cases o with
  | weighted off sl sc =>
    have n1 : ((sl.map fun p => (p.1.rename m.reindex, p.2)).map (·.1)).Nodup := by
      have : (sl.map fun p => (p.1.rename m.reindex, p.2)).map (·.1) = (sl.map (·.1)).map (Lit.rename m.reindex) := by
        simp [List.map_map, Function.comp_def]
      rw [this]
      exact nodup_map_on h.1 fun x _ y _ e => rename_inj (hi _ _) e
    have n2 : ((sc.map fun p => (p.1.map (Lit.rename m.reindex), p.2)).map (·.1)).Nodup := by
      have : (sc.map fun p => (p.1.map (Lit.rename m.reindex), p.2)).map (·.1) =
          (sc.map (·.1)).map (List.map (Lit.rename m.reindex)) := by
        simp [List.map_map, Function.comp_def]
      rw [this]
      exact nodup_map_on h.2.1 fun x _ y _ e => map_rename_inj (fun k _ l _ => hi _ _) e
    rw [Objective.randReindex, reindexLit_eq, renameObj, RustSat.collectMap_eq _ n1, RustSat.collectMap_eq _ n2]
  | unweighted off u sl sc => rfl

theorem wf_renameObj (o : Objective) (h : o.WF) (f : Nat → Nat) (hi : ∀ u v, f u = f v → u = v) :
    (renameObj f o).WF := by
  cases o with
  | weighted off sl sc =>
    refine ⟨?_, ?_, ?_⟩
    · have : (sl.map fun p => (p.1.rename f, p.2)).map (·.1) = (sl.map (·.1)).map (Lit.rename f) := by
        simp [List.map_map, Function.comp_def]
      rw [this]
      exact nodup_map_on h.1 fun x _ y _ e => rename_inj (hi _ _) e
    · have : (sc.map fun p => (p.1.map (Lit.rename f), p.2)).map (·.1) =
          (sc.map (·.1)).map (List.map (Lit.rename f)) := by
        simp [List.map_map, Function.comp_def]
      rw [this]
      exact nodup_map_on h.2.1 fun x _ y _ e => map_rename_inj (fun k _ l _ => hi _ _) e
    · intro p hp
      obtain ⟨q, hq, rfl⟩ := List.mem_map.1 hp
      simpa using h.2.2 q hq
  | unweighted off u sl sc =>
    refine ⟨fun hu => ?_, ?_⟩
    · obtain ⟨rfl, rfl⟩ := h.1 hu; simp
    · intro c hc
      obtain ⟨d, hd, rfl⟩ := List.mem_map.1 hc
      simpa using h.2 d hd

theorem offset_renameObj (o : Objective) (f : Nat → Nat) : (renameObj f o).offset = o.offset := by cases o <;> rfl

theorem iterSoftCls_renameObj (o : Objective) (f : Nat → Nat) :
    (renameObj f o).iterSoftCls = o.iterSoftCls.map fun p => (p.1.map (Lit.rename f), p.2) := by
  cases o with
  | weighted off sl sc =>
    simp [renameObj, Objective.iterSoftCls, List.map_map, Function.comp_def, rename_neg]
  | unweighted off u sl sc =>
    simp [renameObj, Objective.iterSoftCls, List.map_map, Function.comp_def, rename_neg]

/-! ### Shuffling -/

theorem sat_shuffle {perm : Nat → List Nat} {sh : Shuffler} (hr : Random perm sh) (s : SatInstance VM) (a : Asg) :
    (s.shuffle sh).sat a ↔ s.sat a := by
  simp only [SatInstance.sat, SatInstance.shuffle, ClauseSet.sat, (hr.shuffle 0 _).mem_iff, (hr.shuffle 1 _).mem_iff,
    (hr.shuffle 2 _).mem_iff]

theorem value_shuffle {perm : Nat → List Nat} {sh : Shuffler} (hr : Random perm sh) (k : Nat) (o : Objective) (a : Asg) :
    (o.shuffle sh k).value a = o.value a := by
  cases o with
  | weighted off sl sc => rfl
  | unweighted off u sl sc =>
    rw [Objective.shuffle, Objective.value_unweighted, Objective.value_unweighted, (hr.shuffle k sl).countP_eq,
      (hr.shuffle (k + 1) sc).countP_eq]

theorem offset_shuffle (sh : Shuffler) (k : Nat) (o : Objective) : (o.shuffle sh k).offset = o.offset := by cases o <;> rfl

theorem iterSoftCls_shuffle {perm : Nat → List Nat} {sh : Shuffler} (hr : Random perm sh) (k : Nat) (o : Objective) :
    (o.shuffle sh k).iterSoftCls.Perm o.iterSoftCls := by
  cases o with
  | weighted off sl sc => exact .refl _
  | unweighted off u sl sc => exact ((hr.shuffle k sl).map _).append ((hr.shuffle (k + 1) sc).map _)

theorem shuffleObjs_getElem? (sh : Shuffler) (os : List Objective) (k j : Nat) :
    (shuffleObjs sh k os)[j]? = os[j]?.map fun o => o.shuffle sh (k + 2 * j) := by
  induction os generalizing k j with
  | nil => rfl
  | cons o os ih =>
    cases j with
    | zero => rfl
    | succ j =>
      rw [shuffleObjs, List.getElem?_cons_succ, List.getElem?_cons_succ, ih]
      have : k + 2 + 2 * j = k + 2 * (j + 1) := by omega
      rw [this]

theorem length_shuffleObjs (sh : Shuffler) (os : List Objective) (k : Nat) : (shuffleObjs sh k os).length = os.length := by
  induction os generalizing k with
  | nil => rfl
  | cons o os ih => rw [shuffleObjs, List.length_cons, ih, List.length_cons]

/-! ### Objectives read from files have no offset -/

theorem offset_increaseSoftLit (o : Objective) (w : Nat) (l : Lit) : (o.increaseSoftLit w l).offset = o.offset := by
  unfold Objective.increaseSoftLit
  split
  · rfl
  · split
    · rfl
    · split
      · rfl
      · rfl
    · rfl

theorem offset_increaseSoftClause (o : Objective) (w : Nat) (c : Clause) : (o.increaseSoftClause w c).offset = o.offset := by
  unfold Objective.increaseSoftClause
  split
  · rfl
  · split
    · exact offset_increaseSoftLit ..
    · split
      · rfl
      · split
        · rfl
        · rfl
      · rfl

theorem offset_addWcnfData [ManageVars VM] (ds : List WcnfData) (p : SatInstance VM × Objective) :
    (ds.foldl OptInstance.addWcnfData p).2.offset = p.2.offset := by
  induction ds generalizing p with
  | nil => rfl
  | cons d ds ih =>
    rw [List.foldl_cons, ih]
    cases d with
    | hard c => rfl
    | soft w c => exact offset_increaseSoftClause ..
    | comment t => rfl

end

theorem readWcnf_obj {t : Text} {i : OptInstance BasicVM} (h : OptInstance.fromDimacs ⟨0⟩ t = .ok i) :
    i.obj.offset = 0 ∧ ∀ v, i.obj.hasVar v → v < ManageVars.nUsed i.constrs.vm := by
  have key : ∀ (ds : List WcnfData) (vm : BasicVM),
      let i := OptInstance.compose (ds.foldl OptInstance.addWcnfData
        (({ cnf := [], cards := [], pbs := [], vm := vm } : SatInstance BasicVM), Objective.default)).1
        (ds.foldl OptInstance.addWcnfData
        (({ cnf := [], cards := [], pbs := [], vm := vm } : SatInstance BasicVM), Objective.default)).2
      i.obj.offset = 0 ∧ ∀ v, i.obj.hasVar v → v < ManageVars.nUsed i.constrs.vm := by
    intro ds vm
    exact ⟨offset_addWcnfData ds _, (learnObj_spec _ _).2⟩
  rw [OptInstance.fromDimacs] at h
  simp only at h
  split at h
  · cases h
  · injection h with h
    rw [← h]
    exact key [] _
  · split at h
    · split at h
      · cases h
      · injection h with h
        rw [← h]
        exact key _ _
    · cases h
  · split at h
    · cases h
    · injection h with h
      rw [← h]
      exact key (_ :: _) _

theorem offset_modify {os : List Objective} (h : ∀ o ∈ os, o.offset = 0) (n k w : Nat) (c : Clause) :
    ∀ o ∈ (growObjs os n).modify k (fun o => o.increaseSoftClause w c), o.offset = 0 := by
  have h1 : ∀ o ∈ growObjs os n, o.offset = 0 := by
    intro o ho
    unfold growObjs at ho
    split at ho
    · rcases List.mem_append.1 ho with ho | ho
      · exact h o ho
      · rw [List.eq_of_mem_replicate ho]; rfl
    · exact h o ho
  generalize growObjs os n = os' at h1
  induction os' generalizing k with
  | nil => intro o ho; simp at ho
  | cons p os' ih =>
    intro o ho
    cases k with
    | zero =>
      simp only [List.modify_zero_cons] at ho
      rcases List.mem_cons.1 ho with rfl | ho
      · rw [offset_increaseSoftClause]; exact h1 p (by simp)
      · exact h1 o (by simp [ho])
    | succ k =>
      simp only [List.modify_succ_cons] at ho
      rcases List.mem_cons.1 ho with rfl | ho
      · exact h1 o (by simp)
      · exact ih k (fun o ho => h1 o (by simp [ho])) o ho

theorem readMcnf_obj {t : Text} {i : MultiOptInstance BasicVM} (h : MultiOptInstance.fromDimacs ⟨0⟩ t = .ok i) :
    ∀ o ∈ i.objs, o.offset = 0 ∧ ∀ v, o.hasVar v → v < ManageVars.nUsed i.constrs.vm := by
  have key : ∀ (ds : List McnfData) (p q : SatInstance BasicVM × List Objective), (∀ o ∈ p.2, o.offset = 0) →
      SatInstance.forLoop MultiOptInstance.addMcnfData p ds = some q → ∀ o ∈ q.2, o.offset = 0 := by
    intro ds
    induction ds with
    | nil => intro p q hp h; cases h; exact hp
    | cons d ds ih =>
      intro p q hp h
      rw [SatInstance.forLoop] at h
      cases d with
      | hard c => exact ih (p.1.addClause c, p.2) q hp h
      | soft idx w c =>
        rw [MultiOptInstance.addMcnfData] at h
        by_cases h0 : idx = 0
        · rw [if_pos h0] at h; cases h
        · rw [if_neg h0] at h
          exact ih (p.1, (growObjs p.2 idx).modify (idx - 1) fun o => o.increaseSoftClause w c) q
            (offset_modify hp _ _ _ _) h
      | comment t => exact ih p q hp h
  rw [MultiOptInstance.fromDimacs] at h
  split at h
  · cases h
  · split at h
    · cases h
    · rename_i q hq
      injection h with h
      rw [← h]
      exact fun o ho => ⟨key _ _ q (by simp) hq o ho, (learnObjs_spec _ _).2 o ho⟩

/-! ### Renamed clauses can be written -/

theorem writable_rename {n : Nat} {f g : Nat → Nat} (hf : Renaming n f g) (hn : n ≤ maxVarIdx) {c : Clause}
    (h : ∀ l ∈ c, l.var < n) : Writable (c.map (Lit.rename f)) := by
  intro l hl
  obtain ⟨k, hk, rfl⟩ := List.mem_map.1 hl
  have h1 := hf.below _ (h k hk)
  have e : maxVarIdx = 2147483647 := by decide
  rw [Lit.rename, Lit.var_mk']
  omega

/-- The hard clauses of the shuffled instance. -/
theorem shuffle_cnf {perm : Nat → List Nat} {sh : Shuffler} (hr : Random perm sh) (s : SatInstance BasicVM) (m : RandReindVM) :
    ((s.randReindex m).shuffle sh).cnf.Perm (s.cnf.map (List.map (Lit.rename m.reindex))) := hr.shuffle 0 _

theorem shuffle_cards {perm : Nat → List Nat} {sh : Shuffler} (hr : Random perm sh) {s : SatInstance BasicVM} (m : RandReindVM)
    (h : s.cards = []) (h' : s.pbs = []) :
    ((s.randReindex m).shuffle sh).cards = [] ∧ ((s.randReindex m).shuffle sh).pbs = [] := by
  have h1 := hr.shuffle 1 (s.randReindex m).cards
  have h2 := hr.shuffle 2 (s.randReindex m).pbs
  simp only [SatInstance.randReindex, h, h', List.map_nil] at h1 h2
  exact ⟨by simpa [SatInstance.shuffle, SatInstance.randReindex, h] using h1.eq_nil,
    by simpa [SatInstance.shuffle, SatInstance.randReindex, h'] using h2.eq_nil⟩

theorem shuffle_writable {perm : Nat → List Nat} {sh : Shuffler} (hr : Random perm sh) {s : SatInstance BasicVM}
    {m : RandReindVM} {g : Nat → Nat} (hk : s.Known) (hf : Renaming (ManageVars.nUsed s.vm) m.reindex g)
    (hn : ManageVars.nUsed s.vm ≤ maxVarIdx) : ∀ c ∈ ((s.randReindex m).shuffle sh).cnf, Writable c := by
  intro c hc
  obtain ⟨d, hd, rfl⟩ := List.mem_map.1 ((shuffle_cnf hr s m).mem_iff.1 hc)
  exact writable_rename hf hn fun l hl => hk _ (.inl ⟨d, hd, l, hl, rfl⟩)

/-- The soft clauses of the shuffled objective. -/
theorem shuffle_soft {perm : Nat → List Nat} {sh : Shuffler} (hr : Random perm sh) {o : Objective} {n : Nat}
    {m : RandReindVM} {g : Nat → Nat} (hw : o.WF) (hk : ∀ v, o.hasVar v → v < n) (hf : Renaming n m.reindex g)
    (hn : n ≤ maxVarIdx) (hs : ∀ p ∈ o.iterSoftCls, p.2 ≤ usizeMax) (k : Nat) :
    ((o.randReindex m).shuffle sh k).iterSoftCls.Perm
      (o.iterSoftCls.map fun p => (p.1.map (Lit.rename m.reindex), p.2)) ∧
    (∀ p ∈ ((o.randReindex m).shuffle sh k).iterSoftCls, Writable p.1 ∧ p.2 ≤ usizeMax) ∧
    ((o.randReindex m).shuffle sh k).offset = o.offset ∧
    ∀ a, ((o.randReindex m).shuffle sh k).value a = o.value (fun v => a (m.reindex v)) := by
  have e := objective_randReindex o hw m (fun u v => hf.inj)
  have h1 := iterSoftCls_shuffle hr k (o.randReindex m)
  rw [e, iterSoftCls_renameObj] at h1
  refine ⟨by rw [e]; exact h1, fun p hp => ?_, ?_, fun a => ?_⟩
  · rw [e] at hp
    obtain ⟨q, hq, rfl⟩ := List.mem_map.1 (h1.mem_iff.1 hp)
    exact ⟨writable_rename hf hn fun l hl => hk _ (hasVar_iterSoftCls hq hl), hs q hq⟩
  · rw [offset_shuffle, e, offset_renameObj]
  · rw [value_shuffle hr, e, value_rename]

end RustSat
