import Verif.Lemmas.Dimacs
import Verif.Lemmas.Objective2
import Verif.Props.Objective

/-
Building instances from DIMACS data, and the comments written in front of files.
-/

namespace RustSat.DimacsSpec
open Text P Dimacs

/-! ### Comments -/

def NoBreak (t : Text) : Prop := '\n' ∉ t ∧ '\r' ∉ t

theorem NoBreak.append {s t : Text} (h : NoBreak s) (h' : NoBreak t) : NoBreak (s ++ t) := by
  simp only [NoBreak, List.mem_append, not_or]
  exact ⟨⟨h.1, h'.1⟩, h.2, h'.2⟩

theorem noBreak_showNat (n : Nat) : NoBreak (showNat n) :=
  ⟨fun h => absurd (isDigit_showNat n _ h) (by decide), fun h => absurd (isDigit_showNat n _ h) (by decide)⟩

theorem noBreak_showInt (n : Int) : NoBreak (showInt n) :=
  ⟨fun h => absurd (isWs_showInt n _ h) (by decide), fun h => absurd (isWs_showInt n _ h) (by decide)⟩

theorem noBreak_spaced {ts : List Text} (h : ∀ t ∈ ts, NoBreak t) : NoBreak (spaced ts) := by
  induction ts with
  | nil => exact ⟨by simp [spaced], by simp [spaced]⟩
  | cons t ts ih =>
    have h1 : NoBreak [' '] := ⟨by decide, by decide⟩
    have := (h t List.mem_cons_self).append (h1.append (ih fun t' ht' => h t' (List.mem_cons_of_mem _ ht')))
    simpa [spaced] using this

theorem last_append {s t : Text} {c : Char} (h : ∀ x r, t = r ++ [x] → isWs x = false) (ht : t ≠ []) :
    ∀ x r, s ++ t = r ++ [x] → isWs x = false := by
  intro x r e
  rcases List.eq_nil_or_concat t with e' | ⟨r', y, e'⟩
  · exact absurd e' ht
  · rw [List.concat_eq_append] at e'
    rw [e', ← List.append_assoc] at e
    have := List.append_inj_right' e rfl
    cases this
    exact h _ r' e'

theorem commentText_of {p t : Text} {x : Char} (h : NoBreak ('c' :: p ++ (t ++ [x]))) (hx : isWs x = false) :
    CommentText ('c' :: p ++ (t ++ [x])) where
  nl := h.1
  cr := h.2
  last := by
    intro c r e
    rw [← List.append_assoc] at e
    have := List.append_inj_right' e rfl
    cases this
    exact hx

theorem FileLines.single {α : Type} {R : α → Text → Prop} {a : α} {t : Text} {ls : List Text} {as : List α} (h : R a t)
    (hn : '\n' ∉ t) (hl : FileLines R ls as) : FileLines R (t :: ls) (a :: as) := by
  have := FileLines.data (w := []) (w' := []) h (fun c hc => nomatch hc) (fun c hc => nomatch hc) (by simpa using hn) hl
  simpa using this

theorem fileLines_map {α β : Type} {R : α → Text → Prop} (g : Text → α) {ts : List Text}
    (h : ∀ t ∈ ts, R (g t) t ∧ '\n' ∉ t) : FileLines R ts (ts.map g) := by
  induction ts with
  | nil => exact .nil
  | cons t ts ih =>
    have := h t List.mem_cons_self
    exact .single this.1 this.2 (ih fun t' ht' => h t' (List.mem_cons_of_mem _ ht'))

theorem unlines_append (ls ls' : List Text) : unlines (ls ++ ls') = unlines ls ++ unlines ls' := by
  induction ls with
  | nil => rfl
  | cons l ls ih => simp [unlines, ih]

theorem ignored_of {t : Text} (h : '\n' ∉ t) : IgnoredLine ('c' :: t) :=
  ⟨by simp [h], Or.inr ⟨[], t, (fun c hc => nomatch hc), rfl⟩⟩

/-- The comments in front of a WCNF file are skipped. -/
theorem wcnfPreamble_ignored (nh ns : Nat) (off : Int) (nv : Option Nat) :
    ∀ l ∈ wcnfPreamble nh ns off nv, IgnoredLine l := by
  intro l hl
  unfold wcnfPreamble at hl
  rw [List.mem_append, List.mem_append] at hl
  rcases hl with (hl | hl) | hl
  · rw [List.mem_singleton] at hl
    subst hl
    exact ignored_of (t := " WCNF file written by RustSAT".toList) (by decide)
  · cases nv with
    | none => cases hl
    | some n =>
      rw [List.mem_singleton] at hl
      subst hl
      refine ignored_of (t := " ".toList ++ showNat n ++ " variables".toList) ?_
      simp [newline_showNat]
  · simp only [List.mem_cons, List.not_mem_nil, or_false] at hl
    rcases hl with e | e | e <;> subst e
    · refine ignored_of (t := " ".toList ++ showNat nh ++ " hard clauses".toList) ?_
      simp [newline_showNat]
    · refine ignored_of (t := " ".toList ++ showNat ns ++ " soft clauses".toList) ?_
      simp [newline_showNat]
    · refine ignored_of (t := " objective offset: ".toList ++ showInt off) ?_
      simp [newline_showInt]

theorem mcnfPreamble_comments (nh : Nat) (softs : List (List (Clause × Nat) × Int)) (nv : Option Nat) :
    ∀ l ∈ mcnfPreamble nh softs nv, McnfLineText (.comment l) l ∧ '\n' ∉ l := by
  have key : ∀ {p t : Text} {x : Char}, NoBreak p → NoBreak (t ++ [x]) → isWs x = false →
      McnfLineText (.comment ('c' :: p ++ (t ++ [x]))) ('c' :: p ++ (t ++ [x])) ∧ '\n' ∉ ('c' :: p ++ (t ++ [x])) := by
    intro p t x h1 h2 hx
    have hc : NoBreak ['c'] := ⟨by decide, by decide⟩
    have hn : NoBreak ('c' :: p ++ (t ++ [x])) := (hc.append h1).append h2
    exact ⟨.comment (commentText_of hn hx), hn.1⟩
  have lit : ∀ {t : Text}, '\n' ∉ t → '\r' ∉ t → NoBreak t := fun h h' => ⟨h, h'⟩
  intro l hl
  unfold mcnfPreamble at hl
  rw [List.mem_append, List.mem_append] at hl
  rcases hl with (hl | hl) | hl
  · rw [List.mem_singleton] at hl
    subst hl
    exact key (p := []) (t := " MCNF file written by RustSA".toList) (x := 'T') ⟨by decide, by decide⟩
      ⟨by decide, by decide⟩ (by decide)
  · cases nv with
    | none => cases hl
    | some n =>
      rw [List.mem_singleton] at hl
      subst hl
      exact key (p := " ".toList ++ showNat n) (t := " variable".toList) (x := 's')
        (NoBreak.append ⟨by decide, by decide⟩ (noBreak_showNat n)) ⟨by decide, by decide⟩ (by decide)
  · simp only [List.mem_cons, List.not_mem_nil, or_false] at hl
    rcases hl with e | e | e | e <;> subst e
    · exact key (p := " ".toList ++ showNat nh) (t := " hard clause".toList) (x := 's')
        (NoBreak.append ⟨by decide, by decide⟩ (noBreak_showNat nh)) ⟨by decide, by decide⟩ (by decide)
    · exact key (p := " ".toList ++ showNat softs.length) (t := " objective".toList) (x := 's')
        (NoBreak.append ⟨by decide, by decide⟩ (noBreak_showNat _)) ⟨by decide, by decide⟩ (by decide)
    · refine key (p := " ( ".toList ++ spaced (softs.map fun o => showNat o.1.length)) (t := ") soft clause".toList)
        (x := 's') (NoBreak.append ⟨by decide, by decide⟩ (noBreak_spaced ?_)) ⟨by decide, by decide⟩ (by decide)
      intro t ht
      obtain ⟨o, _, e⟩ := List.mem_map.1 ht
      subst e
      exact noBreak_showNat _
    · refine key (p := " objective offsets: ( ".toList ++ spaced (softs.map fun o => showInt o.2)) (t := [])
        (x := ')') (NoBreak.append ⟨by decide, by decide⟩ (noBreak_spaced ?_)) ⟨by decide, by decide⟩ (by decide)
      intro t ht
      obtain ⟨o, _, e⟩ := List.mem_map.1 ht
      subst e
      exact noBreak_showInt _

/-! ### Objectives -/

theorem wsum_neg_units (a : Asg) (sl : List (Lit × Nat)) :
    clsCost a (sl.map fun p => ([p.1.neg], p.2)) = wsum a sl := by
  induction sl with
  | nil => rfl
  | cons p sl ih =>
    obtain ⟨l, w⟩ := p
    simp [clsCost, wsum, ih]

theorem clsCost_append (a : Asg) (xs ys : List (Clause × Nat)) : clsCost a (xs ++ ys) = clsCost a xs + clsCost a ys := by
  induction xs with
  | nil => simp [clsCost]
  | cons p xs ih =>
    obtain ⟨c, w⟩ := p
    simp only [List.cons_append, clsCost, ih]
    omega

theorem clsCost_unit (a : Asg) (u : Nat) (sc : List Clause) :
    clsCost a (sc.map fun c => (c, u)) = u * countFalsified a sc := by
  induction sc with
  | nil => simp [clsCost, countFalsified]
  | cons c sc ih =>
    simp only [List.map_cons, clsCost, countFalsified, ih, Nat.mul_add]
    split <;> simp

theorem clsCost_unit_neg (a : Asg) (u : Nat) (sl : List Lit) :
    clsCost a (sl.map fun l => ([l.neg], u)) = u * countTrue a sl := by
  induction sl with
  | nil => simp [clsCost, countTrue]
  | cons l sl ih =>
    simp only [List.map_cons, clsCost, countTrue, ih, Nat.mul_add]
    cases h : l.holds a <;> simp [h]

/-- The soft clauses of an objective cost its value without the offset. -/
theorem iterSoftCls_cost (o : Objective) (a : Asg) : (clsCost a o.iterSoftCls : Int) = o.value a - o.offset := by
  cases o with
  | weighted off sl sc =>
    simp only [Objective.iterSoftCls, clsCost_append, wsum_neg_units, Objective.value, Objective.offset]
    omega
  | unweighted off u sl sc =>
    simp only [Objective.iterSoftCls, clsCost_append, clsCost_unit, clsCost_unit_neg, Objective.value, Objective.offset,
      ← Nat.mul_add]
    simp only [Int.natCast_mul]
    omega

theorem hasVar_iterSoftCls {o : Objective} {p : Clause × Nat} (hp : p ∈ o.iterSoftCls) {l : Lit} (hl : l ∈ p.1) :
    o.hasVar l.var := by
  cases o with
  | weighted off sl sc =>
    simp only [Objective.iterSoftCls, List.mem_append, List.mem_map] at hp
    rcases hp with ⟨q, hq, e⟩ | hp
    · subst e
      rw [List.mem_singleton] at hl
      subst hl
      exact Or.inl ⟨q, hq, (Lit.var_neg _).symm⟩
    · exact Or.inr ⟨p, hp, l, hl, rfl⟩
  | unweighted off u sl sc =>
    simp only [Objective.iterSoftCls, List.mem_append, List.mem_map] at hp
    rcases hp with ⟨q, hq, e⟩ | ⟨q, hq, e⟩
    · subst e
      rw [List.mem_singleton] at hl
      subst hl
      exact Or.inl ⟨q, hq, (Lit.var_neg _).symm⟩
    · subst e
      exact Or.inr ⟨q, hq, l, hl, rfl⟩

theorem findMax_le {mv : Option Nat} {v m : Nat} (h : Objective.findMax mv v = some m) :
    v ≤ m ∧ ∀ k, mv = some k → k ≤ m := by
  cases mv with
  | none => simp [Objective.findMax] at h; subst h; simp
  | some k =>
    simp only [Objective.findMax] at h
    split at h <;> (simp at h; subst h; refine ⟨by omega, fun k' e => by simp at e; omega⟩)

theorem findMax_some (mv : Option Nat) (v : Nat) : ∃ m, Objective.findMax mv v = some m := by
  cases mv with
  | none => exact ⟨v, rfl⟩
  | some k => simp only [Objective.findMax]; split <;> exact ⟨_, rfl⟩

/-- Folding `findMax` gives an upper bound. -/
theorem foldMax {β : Type} (f : β → Nat) (xs : List β) (mv : Option Nat) :
    (∀ k, mv = some k → ∃ m, xs.foldl (fun mv x => Objective.findMax mv (f x)) mv = some m ∧ k ≤ m) ∧
    ∀ x ∈ xs, ∃ m, xs.foldl (fun mv x => Objective.findMax mv (f x)) mv = some m ∧ f x ≤ m := by
  induction xs generalizing mv with
  | nil => exact ⟨fun k e => ⟨k, e, Nat.le_refl _⟩, fun x hx => by cases hx⟩
  | cons y ys ih =>
    obtain ⟨m, hm⟩ := findMax_some mv (f y)
    have hle := findMax_le hm
    obtain ⟨h1, h2⟩ := ih (Objective.findMax mv (f y))
    obtain ⟨m', hm', hle'⟩ := h1 m hm
    refine ⟨fun k e => ⟨m', hm', Nat.le_trans (hle.2 k e) hle'⟩, fun x hx => ?_⟩
    cases hx with
    | head => exact ⟨m', hm', Nat.le_trans hle.1 hle'⟩
    | tail _ hx => exact h2 x hx

theorem foldMaxC {β : Type} (f : β → Clause) (xs : List β) (mv : Option Nat) :
    (∀ k, mv = some k → ∃ m, xs.foldl (fun mv x => (f x).foldl (fun mv l => Objective.findMax mv l.var) mv) mv = some m ∧
      k ≤ m) ∧
    ∀ x ∈ xs, ∀ l ∈ f x, ∃ m, xs.foldl (fun mv x => (f x).foldl (fun mv l => Objective.findMax mv l.var) mv) mv = some m ∧
      l.var ≤ m := by
  induction xs generalizing mv with
  | nil => exact ⟨fun k e => ⟨k, e, Nat.le_refl _⟩, fun x hx => by cases hx⟩
  | cons y ys ih =>
    obtain ⟨h1, h2⟩ := foldMax (fun l : Lit => l.var) (f y) mv
    obtain ⟨h3, h4⟩ := ih ((f y).foldl (fun mv l => Objective.findMax mv l.var) mv)
    refine ⟨fun k e => ?_, fun x hx l hl => ?_⟩
    · obtain ⟨m, hm, hle⟩ := h1 k e
      obtain ⟨m', hm', hle'⟩ := h3 m hm
      exact ⟨m', hm', Nat.le_trans hle hle'⟩
    · cases hx with
      | head =>
        obtain ⟨m, hm, hle⟩ := h2 l hl
        obtain ⟨m', hm', hle'⟩ := h3 m hm
        exact ⟨m', hm', Nat.le_trans hle hle'⟩
      | tail _ hx => exact h4 x hx l hl

/-- `max_var` bounds the variables of an objective. -/
theorem maxVar_spec {o : Objective} {v : Nat} (h : o.hasVar v) : ∃ m, o.maxVar = some m ∧ v ≤ m := by
  cases o with
  | weighted off sl sc =>
    rcases h with ⟨p, hp, e⟩ | ⟨p, hp, l, hl, e⟩
    · subst e
      obtain ⟨m, hm, hle⟩ := (foldMax (fun p : Lit × Nat => p.1.var) sl none).2 p hp
      obtain ⟨m', hm', hle'⟩ := (foldMaxC (fun p : Clause × Nat => p.1) sc _).1 m hm
      exact ⟨m', hm', Nat.le_trans hle hle'⟩
    · subst e
      exact (foldMaxC (fun p : Clause × Nat => p.1) sc _).2 p hp l hl
  | unweighted off u sl sc =>
    rcases h with ⟨p, hp, e⟩ | ⟨p, hp, l, hl, e⟩
    · subst e
      obtain ⟨m, hm, hle⟩ := (foldMax (fun p : Lit => p.var) sl none).2 p hp
      obtain ⟨m', hm', hle'⟩ := (foldMaxC (fun p : Clause => p) sc _).1 m hm
      exact ⟨m', hm', Nat.le_trans hle hle'⟩
    · subst e
      exact (foldMaxC (fun p : Clause => p) sc _).2 p hp l hl

variable {VM : Type} [ManageVars VM] [LawfulVM VM]

theorem learnObj_spec (vm : VM) (o : Objective) :
    ManageVars.nUsed vm ≤ ManageVars.nUsed (OptInstance.learnObj vm o) ∧
    ∀ v, o.hasVar v → v < ManageVars.nUsed (OptInstance.learnObj vm o) := by
  rw [OptInstance.learnObj]
  cases h : o.maxVar with
  | none =>
    refine ⟨Nat.le_refl _, fun v hv => ?_⟩
    obtain ⟨m, hm, _⟩ := maxVar_spec hv
    rw [h] at hm; cases hm
  | some m =>
    simp only [LawfulVM.increase]
    refine ⟨by omega, fun v hv => ?_⟩
    obtain ⟨m', hm', hle⟩ := maxVar_spec hv
    rw [h] at hm'; cases hm'
    omega

theorem learnObjs_spec (os : List Objective) (vm : VM) :
    ManageVars.nUsed vm ≤ ManageVars.nUsed (os.foldl OptInstance.learnObj vm) ∧
    ∀ o ∈ os, ∀ v, o.hasVar v → v < ManageVars.nUsed (os.foldl OptInstance.learnObj vm) := by
  induction os generalizing vm with
  | nil => exact ⟨Nat.le_refl _, fun o ho => by cases ho⟩
  | cons o os ih =>
    obtain ⟨h1, h2⟩ := learnObj_spec vm o
    obtain ⟨h3, h4⟩ := ih (OptInstance.learnObj vm o)
    refine ⟨Nat.le_trans h1 h3, fun o' ho' v hv => ?_⟩
    cases ho' with
    | head => exact Nat.lt_of_lt_of_le (h2 v hv) h3
    | tail _ ho' => exact h4 o' ho' v hv

/-! ### Building instances -/

theorem addCnfData_spec (ds : List CnfData) (s : SatInstance VM) :
    (ds.foldl SatInstance.addCnfData s).cnf = s.cnf ++ clauses ds ∧
    (ds.foldl SatInstance.addCnfData s).cards = s.cards ∧ (ds.foldl SatInstance.addCnfData s).pbs = s.pbs ∧
    ManageVars.nUsed s.vm ≤ ManageVars.nUsed (ds.foldl SatInstance.addCnfData s).vm ∧
    (s.Known → (ds.foldl SatInstance.addCnfData s).Known) := by
  induction ds generalizing s with
  | nil => simp [clauses]
  | cons d ds ih =>
    cases d with
    | comment t => exact ih s
    | clause c =>
      obtain ⟨h1, h2, h3, h4, h5⟩ := ih (s.addClause c)
      refine ⟨?_, h2, h3, Nat.le_trans (nUsed_markLits s.vm c).1 h4, fun hk => h5 ?_⟩
      · rw [List.foldl_cons, SatInstance.addCnfData, h1]
        simp [SatInstance.addClause, Cnf.addClause, clauses]
      · exact ((C17_add_constraints s c (.ub [] 0) (.ub [] 0 0)).2.2.2 hk).1

theorem addWcnfData_spec (ds : List WcnfData) (s : SatInstance VM) (o : Objective) (ho : o.WF) :
    let p := ds.foldl OptInstance.addWcnfData (s, o)
    p.1.cnf = s.cnf ++ hards ds ∧ p.1.cards = s.cards ∧ p.1.pbs = s.pbs ∧
    ManageVars.nUsed s.vm ≤ ManageVars.nUsed p.1.vm ∧ (s.Known → p.1.Known) ∧
    p.2.WF ∧ ∀ a, p.2.value a = o.value a + clsCost a (softs ds) := by
  induction ds generalizing s o with
  | nil => exact ⟨by simp [hards], rfl, rfl, Nat.le_refl _, id, ho, fun a => by simp [softs, clsCost]⟩
  | cons d ds ih =>
    cases d with
    | comment t => exact ih s o ho
    | hard c =>
      obtain ⟨h1, h2, h3, h4, h5, h6, h7⟩ := ih (s.addClause c) o ho
      refine ⟨?_, h2, h3, Nat.le_trans (nUsed_markLits s.vm c).1 h4, fun hk => h5 ?_, h6, h7⟩
      · rw [List.foldl_cons, OptInstance.addWcnfData, h1]
        simp [SatInstance.addClause, Cnf.addClause, hards]
      · exact ((C17_add_constraints s c (.ub [] 0) (.ub [] 0 0)).2.2.2 hk).1
    | soft w c =>
      obtain ⟨hw, hv⟩ := C21_increase o ho (.clause w c)
      obtain ⟨h1, h2, h3, h4, h5, h6, h7⟩ := ih s (o.increaseSoftClause w c) hw
      refine ⟨h1, h2, h3, h4, h5, h6, fun a => ?_⟩
      have := h7 a
      have hv := hv a
      simp only [ObjectiveOp.apply, ObjectiveOp.amount] at hv
      rw [hv] at this
      rw [List.foldl_cons, OptInstance.addWcnfData, this, softs, clsCost]
      split <;> omega

theorem growObjs_get (os : List Objective) (n k : Nat) (a : Asg) :
    objValue (growObjs os n) k a = objValue os k a := by
  rw [growObjs]
  split
  · rw [objValue, objValue, List.getElem?_append]
    by_cases hk : k < os.length
    · rw [if_pos hk]
    · rw [if_neg hk, List.getElem?_eq_none (l := os) (by omega), List.getElem?_replicate]
      by_cases hk' : k - os.length < n - os.length
      · rw [if_pos hk']; simp [Objective.default, Objective.value]
      · rw [if_neg hk']
  · rfl

theorem growObjs_length (os : List Objective) (n : Nat) : (growObjs os n).length = max os.length n := by
  rw [growObjs]
  split
  · simp; omega
  · omega

theorem growObjs_wf {os : List Objective} (h : ∀ o ∈ os, o.WF) (n : Nat) : ∀ o ∈ growObjs os n, o.WF := by
  intro o ho
  rw [growObjs] at ho
  split at ho
  · rcases List.mem_append.1 ho with ho | ho
    · exact h o ho
    · rw [(List.mem_replicate.1 ho).2]; simp [Objective.default, Objective.WF]
  · exact h o ho

theorem modify_spec {os : List Objective} (h : ∀ o ∈ os, o.WF) {j : Nat} (hj : j < os.length) (w : Nat) (c : Clause) :
    (∀ o ∈ os.modify j fun o => o.increaseSoftClause w c, o.WF) ∧
    ∀ k a, objValue (os.modify j fun o => o.increaseSoftClause w c) k a =
      objValue os k a + if j = k ∧ Clause.falsified a c = true then (w : Int) else 0 := by
  constructor
  · intro o ho
    obtain ⟨k, hk⟩ := List.mem_iff_getElem?.1 ho
    rw [List.getElem?_modify] at hk
    cases e : os[k]? with
    | none => rw [e] at hk; cases hk
    | some o' =>
      rw [e] at hk
      simp only [Option.map_eq_map, Option.map_some, Option.some.injEq] at hk
      have hw := h o' (List.mem_of_getElem? e)
      subst hk
      split
      · exact (C21_increase o' hw (.clause w c)).1
      · exact hw
  · intro k a
    rw [objValue, objValue, List.getElem?_modify]
    cases e : os[k]? with
    | none =>
      have : j ≠ k := fun e' => by
        subst e'
        rw [List.getElem?_eq_none_iff] at e
        omega
      simp [this]
    | some o' =>
      have hw := h o' (List.mem_of_getElem? e)
      have := (C21_increase o' hw (.clause w c)).2 a
      simp only [ObjectiveOp.apply, ObjectiveOp.amount] at this
      by_cases hjk : j = k
      · simp [hjk, this]
      · simp [hjk]

theorem addMcnfData_spec (ds : List McnfData) (hd : ∀ i w c, McnfData.soft i w c ∈ ds → 1 ≤ i) (s : SatInstance VM)
    (os : List Objective) (ho : ∀ o ∈ os, o.WF) :
    ∃ p, SatInstance.forLoop MultiOptInstance.addMcnfData (s, os) ds = some p ∧
    p.1.cnf = s.cnf ++ moHards ds ∧ p.1.cards = s.cards ∧ p.1.pbs = s.pbs ∧
    ManageVars.nUsed s.vm ≤ ManageVars.nUsed p.1.vm ∧ (s.Known → p.1.Known) ∧
    (∀ o ∈ p.2, o.WF) ∧ p.2.length = max os.length (moMax ds) ∧
    ∀ k a, objValue p.2 k a = objValue os k a + clsCost a (moSofts (k + 1) ds) := by
  induction ds generalizing s os with
  | nil => exact ⟨(s, os), rfl, by simp [moHards], rfl, rfl, Nat.le_refl _, id, ho, by simp [moMax],
      fun k a => by simp [moSofts, clsCost]⟩
  | cons d ds ih =>
    have hd' : ∀ i w c, McnfData.soft i w c ∈ ds → 1 ≤ i := fun i w c h => hd i w c (List.mem_cons_of_mem _ h)
    cases d with
    | comment t => exact ih hd' s os ho
    | hard c =>
      obtain ⟨p, h0, h1, h2, h3, h4, h5, h6, h7, h8⟩ := ih hd' (s.addClause c) os ho
      refine ⟨p, h0, ?_, h2, h3, Nat.le_trans (nUsed_markLits s.vm c).1 h4, fun hk => h5 ?_, h6, h7, h8⟩
      · rw [h1]
        simp [SatInstance.addClause, Cnf.addClause, moHards]
      · exact ((C17_add_constraints s c (.ub [] 0) (.ub [] 0 0)).2.2.2 hk).1
    | soft i w c =>
      have hi := hd i w c List.mem_cons_self
      have hlen := growObjs_length os i
      obtain ⟨hw, hv⟩ := modify_spec (growObjs_wf ho i) (j := i - 1) (by omega) w c
      obtain ⟨p, h0, h1, h2, h3, h4, h5, h6, h7, h8⟩ := ih hd' s _ hw
      refine ⟨p, ?_, h1, h2, h3, h4, h5, h6, ?_, fun k a => ?_⟩
      · rw [SatInstance.forLoop, MultiOptInstance.addMcnfData, if_neg (by omega)]
        exact h0
      · rw [h7, List.length_modify, hlen, moMax]
        omega
      · rw [h8, hv, growObjs_get, moSofts]
        by_cases hk : i = k + 1
        · rw [if_pos hk, clsCost]
          have : i - 1 = k := by omega
          simp only [this, true_and]
          split <;> omega
        · rw [if_neg hk, if_neg (fun h => hk (by omega))]
          omega

theorem FileLines.mem {α : Type} {R : α → Text → Prop} {ls : List Text} {as : List α} (h : FileLines R ls as) :
    ∀ a ∈ as, ∃ t, R a t := by
  induction h with
  | nil => intro a ha; cases ha
  | blank h1 h2 h3 ih => exact ih
  | @data a t w w' ls as h1 h2 h3 h4 h5 ih =>
    intro b hb
    cases hb with
    | head => exact ⟨t, h1⟩
    | tail _ hb => exact ih b hb

theorem moIdx_pos {ls : List Text} {ds : List McnfData} (h : FileLines McnfLineText ls ds) :
    ∀ i w c, McnfData.soft i w c ∈ ds → 1 ≤ i := by
  intro i w c hm
  obtain ⟨t, ht⟩ := h.mem _ hm
  cases ht with
  | soft h1 => exact h1

/-! ### Data -/

theorem clauses_map (f : ClauseSet) : clauses (f.map CnfData.clause) = f := by
  induction f with
  | nil => rfl
  | cons c f ih => rw [List.map_cons, clauses, ih]

theorem hards_append (xs ys : List WcnfData) : hards (xs ++ ys) = hards xs ++ hards ys := by
  induction xs with
  | nil => rfl
  | cons x xs ih => cases x <;> simp [hards, ih]

theorem softs_append (xs ys : List WcnfData) : softs (xs ++ ys) = softs xs ++ softs ys := by
  induction xs with
  | nil => rfl
  | cons x xs ih => cases x <;> simp [softs, ih]

theorem hards_map (f : ClauseSet) : hards (f.map WcnfData.hard) = f ∧ softs (f.map WcnfData.hard) = [] := by
  induction f with
  | nil => exact ⟨rfl, rfl⟩
  | cons c f ih => simp [hards, softs, ih]

theorem softs_map (s : List (Clause × Nat)) :
    softs (s.map fun p => WcnfData.soft p.2 p.1) = s ∧ hards (s.map fun p => WcnfData.soft p.2 p.1) = [] := by
  induction s with
  | nil => exact ⟨rfl, rfl⟩
  | cons c f ih => simp [hards, softs, ih]

theorem softs_dropWhile (ds : List WcnfData) :
    softs (ds.dropWhile isComment) = softs ds ∧
    hards (ds.dropWhile isComment) = hards ds := by
  induction ds with
  | nil => exact ⟨rfl, rfl⟩
  | cons d ds ih => cases d <;> simp [List.dropWhile, isComment, softs, hards, ih]

theorem moHards_append (xs ys : List McnfData) : moHards (xs ++ ys) = moHards xs ++ moHards ys := by
  induction xs with
  | nil => rfl
  | cons x xs ih => cases x <;> simp [moHards, ih]

theorem moSofts_append (i : Nat) (xs ys : List McnfData) : moSofts i (xs ++ ys) = moSofts i xs ++ moSofts i ys := by
  induction xs with
  | nil => rfl
  | cons x xs ih =>
    cases x with
    | hard c => simp [moSofts, ih]
    | comment c => simp [moSofts, ih]
    | soft j w c =>
      simp only [List.cons_append, moSofts, ih]
      split <;> simp

theorem moMax_append (xs ys : List McnfData) : moMax (xs ++ ys) = max (moMax xs) (moMax ys) := by
  induction xs with
  | nil => simp [moMax]
  | cons x xs ih => cases x <;> simp [moMax, ih, Nat.max_assoc]

theorem moHards_map (f : ClauseSet) (i : Nat) : moHards (f.map McnfData.hard) = f ∧
    moSofts i (f.map McnfData.hard) = [] ∧ moMax (f.map McnfData.hard) = 0 := by
  induction f with
  | nil => exact ⟨rfl, rfl, rfl⟩
  | cons c f ih => simp [moHards, moSofts, moMax, ih]

theorem mo_comments (ts : List Text) (i : Nat) : moHards (ts.map McnfData.comment) = [] ∧
    moSofts i (ts.map McnfData.comment) = [] ∧ moMax (ts.map McnfData.comment) = 0 := by
  induction ts with
  | nil => exact ⟨rfl, rfl, rfl⟩
  | cons c f ih => simp [moHards, moSofts, moMax, ih]

theorem mo_softs (j i : Nat) (s : List (Clause × Nat)) :
    moHards (s.map fun p => McnfData.soft j p.2 p.1) = [] ∧
    moSofts i (s.map fun p => McnfData.soft j p.2 p.1) = (if j = i then s else []) ∧
    moMax (s.map fun p => McnfData.soft j p.2 p.1) = if s = [] then 0 else j := by
  induction s with
  | nil => simp [moHards, moSofts, moMax]
  | cons p s ih =>
    obtain ⟨h1, h2, h3⟩ := ih
    refine ⟨h1, ?_, ?_⟩
    · rw [List.map_cons, moSofts, h2]; split <;> rfl
    · rw [List.map_cons, moMax, h3]; simp; split <;> simp

theorem moData_spec (os : List (List (Clause × Nat))) (j : Nat) :
    moHards (moData j os) = [] ∧
    (∀ i, moSofts (i + 1) (moData j os) = if j ≤ i then (os[i - j]?).getD [] else []) ∧
    (moMax (moData j os) ≤ j + os.length) ∧ (∀ i w c, McnfData.soft i w c ∈ moData j os → 1 ≤ i) ∧
    (∀ k o, os[k]? = some o → o ≠ [] → j + k + 1 ≤ moMax (moData j os)) := by
  induction os generalizing j with
  | nil => simp [moData, moHards, moSofts, moMax]
  | cons o os ih =>
    obtain ⟨h1, h2, h3, h4, h5⟩ := ih (j + 1)
    obtain ⟨g1, _, g3⟩ := mo_softs (j + 1) 0 o
    rw [moData]
    refine ⟨by rw [moHards_append, g1, h1]; rfl, fun i => ?_, ?_, ?_, ?_⟩
    · rw [moSofts_append, (mo_softs (j + 1) (i + 1) o).2.1, h2]
      by_cases e : j = i
      · subst e
        rw [if_pos rfl, if_neg (by omega), if_pos (Nat.le_refl _)]
        simp
      · rw [if_neg (by omega)]
        by_cases hle : j ≤ i
        · rw [if_pos (by omega), if_pos hle]
          have : i - j = (i - (j + 1)) + 1 := by omega
          rw [this, List.getElem?_cons_succ]
          rfl
        · rw [if_neg (by omega), if_neg hle]; rfl
    · rw [moMax_append, g3, List.length_cons]
      split <;> omega
    · intro i w c hm
      rcases List.mem_append.1 hm with hm | hm
      · obtain ⟨p, _, e⟩ := List.mem_map.1 hm
        cases e; omega
      · exact h4 i w c hm
    · intro k o' hk hne
      rw [moMax_append]
      cases k with
      | zero =>
        simp at hk
        subst hk
        rw [g3, if_neg hne]
        omega
      | succ k =>
        have := h5 k o' (by simpa using hk) hne
        omega

end RustSat.DimacsSpec
