import Verif.Lemmas.Shuffle
/-
C80: `shuffledimacs` renames the variables of a file by a bijection and reorders its constraints.
-/
namespace RustSat
open Dimacs DimacsSpec ShuffleSpec

/-- C80: re-indexing any instance with a `RandReindVarManager` and shuffling it renames its variables: an assignment
satisfies the new instance iff, read through the renaming, it satisfies the old one. -/
theorem C80_instance {VM : Type} {perm : Nat → List Nat} {sh : Shuffler} (hr : Random perm sh) (s : SatInstance VM) (n : Nat) :
    ∃ f g, Renaming n f g ∧ (∀ v, (RandReindVM.init (perm n)).reindex v = f v) ∧
      (∀ v, (RandReindVM.init (perm n)).reverse v = some (g v)) ∧
      ∀ a, ((s.randReindex (RandReindVM.init (perm n))).shuffle sh).sat a ↔ s.sat (fun v => a (f v)) := by
  refine ⟨_, _, renaming_init (hr.perm n), fun _ => rfl, fun v => ?_, fun a => ?_⟩
  · rw [RandReindVM.back, RandReindVM.reverse]
    cases (RandReindVM.init (perm n)).outMap[v]? <;> rfl
  · rw [sat_shuffle hr, sat_randReindex]

/-- C80: the same for objectives: the cost of an assignment is the old cost, read through the renaming. -/
theorem C80_objective {perm : Nat → List Nat} {sh : Shuffler} (hr : Random perm sh) (o : Objective) (hw : o.WF) (n k : Nat) :
    ((o.randReindex (RandReindVM.init (perm n))).shuffle sh k).offset = o.offset ∧
      ∀ a, ((o.randReindex (RandReindVM.init (perm n))).shuffle sh k).value a =
        o.value (fun v => a ((RandReindVM.init (perm n)).reindex v)) := by
  have e := objective_randReindex o hw (RandReindVM.init (perm n)) fun u v => (renaming_init (hr.perm n)).inj
  exact ⟨by rw [offset_shuffle, e, offset_renameObj], fun a => by rw [value_shuffle hr, e, value_rename]⟩

/-- C80: a CNF file is turned into a CNF file that is its renaming. -/
theorem C80_cnf {perm : Nat → List Nat} {sh : Shuffler} (hr : Random perm sh) {t : Text} {s : SatInstance BasicVM}
    (h : SatInstance.fromDimacs ⟨0⟩ t = .ok s) (hn : ManageVars.nUsed s.vm ≤ maxVarIdx) (hl : s.cnf.length ≤ usizeMax) :
    ∃ t' s' f g, shuffleCnf perm sh t = .output t' ∧ SatInstance.fromDimacs (VM := BasicVM) ⟨0⟩ t' = .ok s' ∧
      Renaming (ManageVars.nUsed s.vm) f g ∧ s'.cnf.Perm (s.cnf.map (List.map (Lit.rename f))) ∧
      ManageVars.nUsed s.vm ≤ ManageVars.nUsed s'.vm ∧ ∀ a, s'.sat a ↔ s.sat (fun v => a (f v)) := by
  obtain ⟨hk, h1, h2⟩ := readCnf_known h
  have hp := hr.perm (ManageVars.nUsed s.vm)
  have hlen : (perm (ManageVars.nUsed s.vm)).length = ManageVars.nUsed s.vm := by rw [hp.length_eq, List.length_range]
  generalize hpe : perm (ManageVars.nUsed s.vm) = p at hp hlen
  have hf := renaming_init hp
  obtain ⟨c1, c2⟩ := shuffle_cards hr (RandReindVM.init p) h1 h2
  obtain ⟨t', s', e1, e2, e3, e4, _, e5⟩ := C41_instance (VM := BasicVM) ⟨0⟩
    ⟨((s.randReindex (RandReindVM.init p)).shuffle sh).cnf, ((s.randReindex (RandReindVM.init p)).shuffle sh).cards,
      ((s.randReindex (RandReindVM.init p)).shuffle sh).pbs, ⟨ManageVars.nUsed s.vm⟩⟩ c1 c2
    (shuffle_writable hr hk hf hn) hn (by
      rw [(shuffle_cnf hr s _).length_eq, List.length_map]; exact hl)
  refine ⟨t', s', _, _, ?_, e2, hf, by rw [e3]; exact shuffle_cnf hr s _, e5, fun a => ?_⟩
  · rw [shuffleCnf, h, withRead, hpe]
    have : ((s.randReindex (RandReindVM.init p)).shuffle sh).writeDimacs = .ok t' := by
      rw [← e1, SatInstance.writeDimacs, SatInstance.writeDimacs]
      have : ManageVars.nUsed ((s.randReindex (RandReindVM.init p)).shuffle sh).vm = ManageVars.nUsed s.vm := hlen
      rw [this]
      rfl
    rw [this, ToolResult.ofRes]
  · rw [e4]
    exact (sat_shuffle hr (s.randReindex (RandReindVM.init p)) a).trans (sat_randReindex s _ a)

/-- C80: a WCNF file is turned into a WCNF file that is its renaming, with the same costs. -/
theorem C80_wcnf {perm : Nat → List Nat} {sh : Shuffler} (hr : Random perm sh) {t : Text} {i : OptInstance BasicVM}
    (h : OptInstance.fromDimacs ⟨0⟩ t = .ok i) (hn : ManageVars.nUsed i.constrs.vm ≤ maxVarIdx)
    (hs : ∀ p ∈ i.obj.iterSoftCls, p.2 ≤ usizeMax) :
    ∃ t' i' f g, shuffleWcnf perm sh t = .output t' ∧ OptInstance.fromDimacs (VM := BasicVM) ⟨0⟩ t' = .ok i' ∧
      Renaming (ManageVars.nUsed i.constrs.vm) f g ∧ i'.constrs.cnf.Perm (i.constrs.cnf.map (List.map (Lit.rename f))) ∧
      ∀ a, (i'.constrs.sat a ↔ i.constrs.sat (fun v => a (f v))) ∧ i'.obj.value a = i.obj.value (fun v => a (f v)) := by
  obtain ⟨hk, h1, h2, hw⟩ := readWcnf_known h
  obtain ⟨h0, hko⟩ := readWcnf_obj h
  have hp := hr.perm (ManageVars.nUsed i.constrs.vm)
  have hlen : (perm (ManageVars.nUsed i.constrs.vm)).length = ManageVars.nUsed i.constrs.vm := by
    rw [hp.length_eq, List.length_range]
  generalize hpe : perm (ManageVars.nUsed i.constrs.vm) = p at hp hlen
  have hf := renaming_init hp
  obtain ⟨c1, c2⟩ := shuffle_cards hr (RandReindVM.init p) h1 h2
  obtain ⟨_, d2, d3, d4⟩ := shuffle_soft hr hw hko hf hn hs 3
  obtain ⟨t', i', e1, e2, e3, e4, _, _, _, e5⟩ := C42_instance (VM := BasicVM) ⟨0⟩
    ⟨⟨((i.constrs.randReindex (RandReindVM.init p)).shuffle sh).cnf, ((i.constrs.randReindex (RandReindVM.init p)).shuffle sh).cards,
      ((i.constrs.randReindex (RandReindVM.init p)).shuffle sh).pbs, ⟨ManageVars.nUsed i.constrs.vm⟩⟩,
      (i.obj.randReindex (RandReindVM.init p)).shuffle sh 3⟩ c1 c2 (shuffle_writable hr hk hf hn) d2
  refine ⟨t', i', _, _, ?_, e2, hf, by rw [e3]; exact shuffle_cnf hr i.constrs _, fun a => ⟨?_, ?_⟩⟩
  · rw [shuffleWcnf, h, withRead, hpe]
    have : ((i.randReindex (RandReindVM.init p)).shuffle sh).writeDimacs = .ok t' := by
      rw [← e1, OptInstance.writeDimacs, OptInstance.writeDimacs]
      have : ManageVars.nUsed ((i.randReindex (RandReindVM.init p)).shuffle sh).constrs.vm = ManageVars.nUsed i.constrs.vm :=
        hlen
      rw [this]
      rfl
    rw [this, ToolResult.ofRes]
  · rw [e4]
    exact (sat_shuffle hr (i.constrs.randReindex (RandReindVM.init p)) a).trans (sat_randReindex i.constrs _ a)
  · rw [e5]
    simp only [d3, d4, h0, Int.sub_zero]

/-- C80: an MCNF file is turned into an MCNF file that is its renaming, with the same values of all objectives. Missing:
the number of objectives, if the last of them have no soft clauses with a positive weight
(`C80_violated_zero_weight`). -/
theorem C80_mcnf_partial {perm : Nat → List Nat} {sh : Shuffler} (hr : Random perm sh) {t : Text}
    {i : MultiOptInstance BasicVM} (h : MultiOptInstance.fromDimacs ⟨0⟩ t = .ok i)
    (hn : ManageVars.nUsed i.constrs.vm ≤ maxVarIdx) (hs : ∀ o ∈ i.objs, ∀ p ∈ o.iterSoftCls, p.2 ≤ usizeMax)
    (hl : i.objs.length ≤ usizeMax) :
    ∃ t' i' f g, shuffleMcnf perm sh t = .output t' ∧ MultiOptInstance.fromDimacs (VM := BasicVM) ⟨0⟩ t' = .ok i' ∧
      Renaming (ManageVars.nUsed i.constrs.vm) f g ∧ i'.constrs.cnf.Perm (i.constrs.cnf.map (List.map (Lit.rename f))) ∧
      i'.objs.length ≤ i.objs.length ∧
      (∀ o, i.objs.getLast? = some o → o.iterSoftCls ≠ [] → i'.objs.length = i.objs.length) ∧
      ∀ a, (i'.constrs.sat a ↔ i.constrs.sat (fun v => a (f v))) ∧
        ∀ k, objValue i'.objs k a = objValue i.objs k (fun v => a (f v)) := by
  obtain ⟨hk, h1, h2, hw⟩ := readMcnf_known h
  have hko := readMcnf_obj h
  have hp := hr.perm (ManageVars.nUsed i.constrs.vm)
  have hlen : (perm (ManageVars.nUsed i.constrs.vm)).length = ManageVars.nUsed i.constrs.vm := by
    rw [hp.length_eq, List.length_range]
  generalize hpe : perm (ManageVars.nUsed i.constrs.vm) = p at hp hlen
  have hf := renaming_init hp
  obtain ⟨c1, c2⟩ := shuffle_cards hr (RandReindVM.init p) h1 h2
  have hso : ∀ k o, i.objs[k]? = some o → _ := fun k o hm =>
    have hm := List.mem_of_getElem? hm
    shuffle_soft hr (hw o hm) (hko o hm).2 hf hn (hs o hm) (3 + 2 * k)
  have hget : ∀ k : Nat, (shuffleObjs sh 3 (i.objs.map fun o => o.randReindex (RandReindVM.init p)))[k]? =
      i.objs[k]?.map fun o => (o.randReindex (RandReindVM.init p)).shuffle sh (3 + 2 * k) := by
    intro k
    rw [shuffleObjs_getElem?, List.getElem?_map, Option.map_map]
    rfl
  have hlo : (shuffleObjs sh 3 (i.objs.map fun o => o.randReindex (RandReindVM.init p))).length = i.objs.length := by
    rw [length_shuffleObjs, List.length_map]
  obtain ⟨t', i', e1, e2, e3, e4, _, _, _, e5, e6, e7⟩ := C43_instance_partial (VM := BasicVM) ⟨0⟩
    ⟨⟨((i.constrs.randReindex (RandReindVM.init p)).shuffle sh).cnf, ((i.constrs.randReindex (RandReindVM.init p)).shuffle sh).cards,
      ((i.constrs.randReindex (RandReindVM.init p)).shuffle sh).pbs, ⟨ManageVars.nUsed i.constrs.vm⟩⟩,
      shuffleObjs sh 3 (i.objs.map fun o => o.randReindex (RandReindVM.init p))⟩ c1 c2 (shuffle_writable hr hk hf hn) (by
        intro o ho
        obtain ⟨k, hk⟩ := List.getElem?_of_mem ho
        rw [hget] at hk
        cases ho' : i.objs[k]? with
        | none => rw [ho'] at hk; cases hk
        | some o' =>
          rw [ho'] at hk
          injection hk with hk
          rw [← hk]
          exact (hso k o' ho').2.1) (by rw [hlo]; exact hl)
  rw [hlo] at e5 e6
  refine ⟨t', i', _, _, ?_, e2, hf, by rw [e3]; exact shuffle_cnf hr i.constrs _, e5, fun o ho hne => ?_, fun a => ⟨?_, fun k => ?_⟩⟩
  · rw [shuffleMcnf, h, withRead, hpe]
    have : ((i.randReindex (RandReindVM.init p)).shuffle sh).writeDimacs = .ok t' := by
      rw [← e1, MultiOptInstance.writeDimacs, MultiOptInstance.writeDimacs]
      have : ManageVars.nUsed ((i.randReindex (RandReindVM.init p)).shuffle sh).constrs.vm = ManageVars.nUsed i.constrs.vm :=
        hlen
      rw [this]
      rfl
    rw [this, ToolResult.ofRes]
  · rw [List.getLast?_eq_getElem?] at ho
    refine e6 ((o.randReindex (RandReindVM.init p)).shuffle sh (3 + 2 * (i.objs.length - 1))) ?_ fun hnil => hne ?_
    · rw [List.getLast?_eq_getElem?, hget, hlo, ho]
      rfl
    · have hperm := (hso _ o ho).1
      rw [hnil] at hperm
      exact List.map_eq_nil_iff.1 hperm.symm.eq_nil
  · rw [e4]
    exact (sat_shuffle hr (i.constrs.randReindex (RandReindVM.init p)) a).trans (sat_randReindex i.constrs _ a)
  · cases ho : i.objs[k]? with
    | none =>
      have h1 : i.objs.length ≤ k := List.getElem?_eq_none_iff.1 ho
      have h2 : i'.objs[k]? = none := List.getElem?_eq_none_iff.2 (by omega)
      rw [objValue, objValue, ho, h2]
    | some o =>
      have h3 := e7 k ((o.randReindex (RandReindVM.init p)).shuffle sh (3 + 2 * k)) (by rw [hget, ho]; rfl) a
      obtain ⟨_, _, d3, d4⟩ := hso k o ho
      rw [h3, d3, d4, objValue, ho, (hko o (List.mem_of_getElem? ho)).1]
      simp

/-! ### The kind of the file -/

theorem splitExtension_dot {stem ext : Text} (hs : stem ≠ []) (hd : ext ≠ [] ∨ stem ≠ ['.']) (he : '.' ∉ ext) :
    splitExtension (stem ++ '.' :: ext) = some (stem, ext) := by
  have hr : (stem ++ '.' :: ext).reverse = ext.reverse ++ '.' :: stem.reverse := by simp
  have hne : ∀ c ∈ ext.reverse, (c != '.') = true := by
    intro c hc
    have : c ≠ '.' := fun e => he (by rw [← e]; exact List.mem_reverse.1 hc)
    simpa using this
  have h1 : (ext.reverse ++ '.' :: stem.reverse).takeWhile (· != '.') = ext.reverse := by
    rw [List.takeWhile_append_of_pos hne]
    simp
  have h2 : (ext.reverse ++ '.' :: stem.reverse).dropWhile (· != '.') = '.' :: stem.reverse := by
    rw [List.dropWhile_append_of_pos hne]
    simp
  simp only [splitExtension, hr, h1, h2, List.reverse_reverse]
  rw [if_neg]
  rintro (h | h)
  · cases stem with
    | nil => exact hs rfl
    | cons c stem =>
      cases stem with
      | nil =>
        simp only [List.cons_append, List.nil_append, List.cons.injEq, true_and] at h
        rcases hd with hd | hd
        · exact hd h.2
        · exact hd (by rw [h.1])
      | cons d stem =>
        have := congrArg List.length h
        simp at this
  · exact hs (List.reverse_eq_nil_iff.1 h)

/-- C80: the kind of the file is told by the extension of its name, also if the name has the extension `gz` or `bz2` of a
compressed file after it. Missing: `xz`, see `C80_violated_xz`. -/
theorem C80_file_type_partial {stem ext : Text} (hs : stem ≠ []) (hne : ext ≠ []) (he : '.' ∉ ext) :
    (ext ≠ "gz".toList → ext ≠ "bz2".toList → KindOf (determineFileType (stem ++ '.' :: ext)) ext) ∧
    KindOf (determineFileType (stem ++ '.' :: ext ++ ".gz".toList)) ext ∧
    KindOf (determineFileType (stem ++ '.' :: ext ++ ".bz2".toList)) ext := by
  have hk : ∀ e, KindOf (.ofExtension e) e := by
    intro e
    rw [ShuffleFileType.ofExtension]
    by_cases h1 : e = "wcnf".toList
    · rw [if_pos h1]; exact h1
    · rw [if_neg h1]
      by_cases h2 : e = "mcnf".toList
      · rw [if_pos h2]; exact h2
      · rw [if_neg h2]; exact ⟨h1, h2⟩
  have h0 := splitExtension_dot hs (.inl hne) he
  have hc : ∀ z : Text, z ≠ [] → '.' ∉ z → splitExtension (stem ++ '.' :: ext ++ '.' :: z) = some (stem ++ '.' :: ext, z) :=
    fun z hz hd => splitExtension_dot (by simp) (.inl hz) hd
  refine ⟨fun h1 h2 => ?_, ?_, ?_⟩
  · rw [determineFileType, h0]
    simp only [if_neg (show ¬ (ext = "gz".toList ∨ ext = "bz2".toList) from fun h => h.elim h1 h2)]
    exact hk ext
  · rw [determineFileType, show ".gz".toList = '.' :: "gz".toList from rfl, hc _ (by decide) (by decide)]
    simp only [h0]
    exact hk ext
  · rw [determineFileType, show ".bz2".toList = '.' :: "bz2".toList from rfl, hc _ (by decide) (by decide)]
    simp only [h0]
    exact hk ext

example := C80_file_type_partial (stem := "data/a".toList) (ext := "wcnf".toList) (by decide) (by decide) (by decide)

/-- C80: a file is handled according to its extension, also if it is compressed. Missing: `xz`, see `C80_violated_xz`. -/
theorem C80_dispatch_partial (perm : Nat → List Nat) (sh : Shuffler) {stem : Text} (hs : stem ≠ []) (t : Text) :
    ∀ z ∈ [[], ".gz".toList, ".bz2".toList],
      shuffledimacs perm sh (stem ++ ".cnf".toList ++ z) t = shuffleCnf perm sh t ∧
      shuffledimacs perm sh (stem ++ ".wcnf".toList ++ z) t = shuffleWcnf perm sh t ∧
      shuffledimacs perm sh (stem ++ ".mcnf".toList ++ z) t = shuffleMcnf perm sh t := by
  have key : ∀ z ∈ [[], ".gz".toList, ".bz2".toList], ∀ ext : Text, ext ≠ [] → '.' ∉ ext → ext ≠ "gz".toList → ext ≠ "bz2".toList →
      determineFileType (stem ++ '.' :: ext ++ z) = .ofExtension ext := by
    intro z hz ext hne he h1 h2
    have h0 := splitExtension_dot hs (.inl hne) he
    have hc : ∀ z : Text, z ≠ [] → '.' ∉ z → splitExtension (stem ++ '.' :: ext ++ '.' :: z) = some (stem ++ '.' :: ext, z) :=
      fun z hz hd => splitExtension_dot (by simp) (.inl hz) hd
    simp only [List.mem_cons, List.not_mem_nil, or_false] at hz
    rcases hz with rfl | rfl | rfl
    · rw [List.append_nil, determineFileType, h0]
      simp only [if_neg (show ¬ (ext = "gz".toList ∨ ext = "bz2".toList) from fun h => h.elim h1 h2)]
    · rw [determineFileType, show ".gz".toList = '.' :: "gz".toList from rfl, hc _ (by decide) (by decide)]
      simp only [h0, true_or, if_true]
    · rw [determineFileType, show ".bz2".toList = '.' :: "bz2".toList from rfl, hc _ (by decide) (by decide)]
      simp only [h0, or_true, if_true]
  intro z hz
  refine ⟨?_, ?_, ?_⟩
  · rw [shuffledimacs, show ".cnf".toList = '.' :: "cnf".toList from rfl, key z hz _ (by decide) (by decide) (by decide) (by decide)]
    rfl
  · rw [shuffledimacs, show ".wcnf".toList = '.' :: "wcnf".toList from rfl, key z hz _ (by decide) (by decide) (by decide) (by decide)]
    rfl
  · rw [shuffledimacs, show ".mcnf".toList = '.' :: "mcnf".toList from rfl, key z hz _ (by decide) (by decide) (by decide) (by decide)]
    rfl

example := C80_dispatch_partial (fun n => List.range n) (fun _ _ l => l) (stem := "a".toList) (by decide) []

instance : LawfulVM RandReindVM where
  newVar_fst _ := rfl
  newVar_snd _ := rfl
  increase m v := by simp only [ManageVars.increaseNextFree, ManageVars.nUsed]; split <;> simp <;> omega
  increase_fst m v := by simp only [ManageVars.increaseNextFree, ManageVars.nUsed]; split <;> simp <;> omega
  combine m o := by simp only [ManageVars.combine, ManageVars.nUsed]; split <;> (try simp only) <;> omega
  forget _ _ := rfl
  maxVar _ := rfl

/-- C80: the manager of re-indexed instances hands out variables that are new, whatever number of variables is reserved before. -/
theorem C80_manager (m : RandReindVM) (v : Nat) :
    ManageVars.nUsed m ≤ (ManageVars.newVar (ManageVars.increaseNextFree m v).2).1 ∧
    v ≤ (ManageVars.newVar (ManageVars.increaseNextFree m v).2).1 ∧
    (ManageVars.newVar (ManageVars.increaseNextFree m v).2).1 < ManageVars.nUsed (ManageVars.newVar (ManageVars.increaseNextFree m v).2).2 := by
  rw [LawfulVM.newVar_fst, LawfulVM.newVar_snd, LawfulVM.increase]
  omega

example : (ManageVars.newVar (ManageVars.increaseNextFree (RandReindVM.init [1, 0, 2]) 2).2).1 = 3 := by decide

/-- C80 fails for files compressed with `xz`, which the library reads: they are taken for CNF files. -/
theorem C80_violated_xz (perm : Nat → List Nat) (sh : Shuffler) :
    determineFileType "a.wcnf.xz".toList = .cnf ∧
    shuffledimacs perm sh "a.wcnf.xz".toList "h 1 0\n3 -1 0\n".toList = .error ∧
    ∃ i, OptInstance.fromDimacs (VM := BasicVM) ⟨0⟩ "h 1 0\n3 -1 0\n".toList = .ok i := by
  refine ⟨by decide, ?_, _, by cbv⟩
  have h : SatInstance.fromDimacs (VM := BasicVM) ⟨0⟩ "h 1 0\n3 -1 0\n".toList = .err .parsing := by cbv
  rw [shuffledimacs, show determineFileType "a.wcnf.xz".toList = .cnf by decide]
  simp only [shuffleCnf, h, withRead]

/-! ### Concrete runs -/

/-- Reversing everything. -/
def shuffleRev : Shuffler := fun _ _ l => l.reverse

theorem shuffleRev_random : Random (fun n => (List.range n).reverse) shuffleRev :=
  ⟨fun _ => List.reverse_perm _, fun _ _ l => List.reverse_perm l⟩

example : shuffledimacs (fun n => (List.range n).reverse) shuffleRev "a.cnf".toList "p cnf 3 2\n1 -2 0\n3 0\n".toList =
    .output "c CNF file written by RustSAT\np cnf 3 2\n1 0\n3 -2 0\n".toList := by cbv

example : shuffledimacs (fun n => (List.range n).reverse) shuffleRev "a.wcnf.gz".toList "h 1 -2 0\n3 1 0\n3 0\n3 2 0\n".toList =
    .output ("c WCNF file written by RustSAT\nc 2 variables\nc 1 hard clauses\nc 3 soft clauses\n".toList ++
      "c objective offset: 0\nh 2 -1 0\n3 1 0\n3 2 0\n3 0\n".toList) := by cbv

example : ∃ t' s' f g, shuffleCnf (fun n => (List.range n).reverse) shuffleRev "p cnf 3 2\n1 -2 0\n3 0\n".toList = .output t' ∧
    SatInstance.fromDimacs (VM := BasicVM) ⟨0⟩ t' = .ok s' ∧ Renaming 3 f g ∧
    ∀ a, s'.sat a ↔ (((⟨[[Lit.pos 0, Lit.negOf 1], [Lit.pos 2]], [], [], ⟨3⟩⟩ : SatInstance BasicVM)).sat fun v => a (f v)) := by
  have h : SatInstance.fromDimacs (VM := BasicVM) ⟨0⟩ "p cnf 3 2\n1 -2 0\n3 0\n".toList =
    .ok ⟨[[Lit.pos 0, Lit.negOf 1], [Lit.pos 2]], [], [], ⟨3⟩⟩ := by cbv
  obtain ⟨t', s', f, g, h1, h2, h3, _, _, h4⟩ := C80_cnf shuffleRev_random h (by decide) (by decide)
  exact ⟨t', s', f, g, h1, h2, h3, h4⟩

/-- C80 fails for the number of objectives: an objective at the end whose soft clauses all have weight 0 is lost. -/
theorem C80_violated_zero_weight :
    ∃ i t' i', MultiOptInstance.fromDimacs (VM := BasicVM) ⟨0⟩ "o 1 1 1 0\no 2 0 1 0\n".toList = .ok i ∧ i.objs.length = 2 ∧
      shuffleMcnf (fun n => (List.range n).reverse) shuffleRev "o 1 1 1 0\no 2 0 1 0\n".toList = .output t' ∧
      MultiOptInstance.fromDimacs (VM := BasicVM) ⟨0⟩ t' = .ok i' ∧ i'.objs.length = 1 := by
  refine ⟨_, ("c MCNF file written by RustSAT\nc 1 variables\nc 0 hard clauses\nc 2 objectives\n".toList ++
    "c ( 1 0 ) soft clauses\nc objective offsets: ( 0 0 )\no 1 1 1 0\n".toList), _, by cbv, by rfl, by cbv, by cbv, by rfl⟩

end RustSat
