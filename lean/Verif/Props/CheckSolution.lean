import Verif.Spec.Tools
import Verif.Lemmas.SolverOutput
import Verif.Props.Instance
import Verif.Props.Objective
import Verif.Props.SolverOutput
/-
Property theorems C60 (the solution checker).
-/
namespace RustSat
open Text OutputSpec DimacsSpec

/-! ### Lines with their terminators -/

theorem dropWhile_append_white {w : Text} (hw : White w) (t : Text) :
    (t ++ w).dropWhile isWs = if t.dropWhile isWs = [] then [] else t.dropWhile isWs ++ w := by
  induction t with
  | nil =>
    have : w.dropWhile isWs = [] := by
      have := trimStart_append (s := []) hw
      rwa [List.append_nil] at this
    simp [this]
  | cons c t ih =>
    by_cases hc : isWs c = true
    · simp [hc, ih]
    · simp [hc]

theorem trim_append_white {w : Text} (hw : White w) (t : Text) : trim (t ++ w) = trim t := by
  have hw' : White w.reverse := fun c hc => hw c (List.mem_reverse.mp hc)
  unfold trim trimStart trimEnd
  rw [dropWhile_append_white hw]
  by_cases h : t.dropWhile isWs = []
  · simp [h]
  · rw [if_neg h, List.reverse_append]
    congr 1
    have := List.dropWhile_append_of_pos (p := isWs) (l₁ := w.reverse) (l₂ := (t.dropWhile isWs).reverse) (fun c hc => hw' c hc)
    exact this

theorem readLines_shape (t : Text) : ∀ raw ∈ readLines t, ∃ l, '\n' ∉ l ∧ (raw = l ++ ['\n'] ∨ raw = l ∧ l ≠ []) := by
  induction t with
  | nil => intro raw h; cases h
  | cons c t ih =>
    intro raw h
    unfold readLines at h
    by_cases hc : c = '\n'
    · rw [if_pos hc] at h
      rcases List.mem_cons.1 h with rfl | h
      · exact ⟨[], by simp, .inl rfl⟩
      · exact ih raw h
    · rw [if_neg hc] at h
      cases hr : readLines t with
      | nil =>
        rw [hr] at h
        simp only [List.mem_singleton] at h
        subst h
        exact ⟨[c], by simpa using Ne.symm hc, .inr ⟨rfl, by simp⟩⟩
      | cons l ls =>
        rw [hr] at h ih
        rcases List.mem_cons.1 h with rfl | h
        · obtain ⟨l', h1, h2⟩ := ih l List.mem_cons_self
          refine ⟨c :: l', by simp [h1, Ne.symm hc], ?_⟩
          rcases h2 with rfl | ⟨rfl, _⟩
          · exact .inl rfl
          · exact .inr ⟨rfl, by simp⟩
        · exact ih raw (List.mem_cons_of_mem _ h)

/-- A line with its terminator. -/
theorem readLines_raw {t raw : Text} (h : raw ∈ readLines t) :
    '\n' ∉ chomp raw ∧ raw ≠ [] ∧ lines raw = [chomp raw] ∧ ∃ w, White w ∧ raw = chomp raw ++ w := by
  obtain ⟨l, h1, h2 | ⟨rfl, h2⟩⟩ := readLines_shape t raw h
  · subst h2
    have hrl : readLines (l ++ ['\n']) = [l ++ ['\n']] := by simpa [readLines] using readLines_line (s := []) h1
    have hl : lines (l ++ ['\n']) = [chomp (l ++ ['\n'])] := by rw [lines, hrl]; rfl
    refine ⟨?_, by simp, hl, ?_⟩ <;> unfold chomp <;> simp only [List.reverse_append, List.reverse_singleton, List.singleton_append]
    · cases hr : l.reverse with
      | nil => simp
      | cons c r =>
        have hl' : l = r.reverse ++ [c] := by simpa using congrArg List.reverse hr
        subst hl'
        simp at h1
        by_cases hc : c = '\r'
        · subst hc; simpa using h1.1
        · split
          · rename_i e; simp at e; exact absurd e.1 hc
          · rename_i e; simp at e; subst e; simpa using h1
          · rename_i e1 e2; exact absurd rfl (e2 _)
    · cases hr : l.reverse with
      | nil => 
        have : l = [] := by simpa using hr
        subst this
        exact ⟨['\n'], by intro c hc; simp at hc; subst hc; rfl, rfl⟩
      | cons c r =>
        have hl' : l = r.reverse ++ [c] := by simpa using congrArg List.reverse hr
        subst hl'
        by_cases hc : c = '\r'
        · subst hc; exact ⟨['\r', '\n'], by intro c hc; simp at hc; rcases hc with rfl | rfl <;> rfl, by simp⟩
        · split
          · rename_i e; simp at e; exact absurd e.1 hc
          · rename_i e; simp at e; subst e; exact ⟨['\n'], by intro c hc; simp at hc; subst hc; rfl, by simp⟩
          · rename_i e1 e2; exact absurd rfl (e2 _)
  · rw [chomp_id h1]
    exact ⟨h1, h2, lines_single h1 h2, [], (fun c hc => by cases hc), (by simp)⟩

theorem white_noX {w : Text} (hw : White w) : 'x' ∉ w := fun h => by have := hw _ h; revert this; decide

theorem extendFromVline_raw {t raw r : Text} (h : raw ∈ readLines t) (hv : chomp raw = 'v' :: r) (a : Assignment) :
    a.extendFromVline raw = a.extendFromVline (chomp raw) := by
  obtain ⟨h1, h2, h3, w, hw, h4⟩ := readLines_raw h
  have hne : chomp raw ≠ [] := by rw [hv]; simp
  unfold Assignment.extendFromVline
  rw [if_neg h2, if_neg hne, h3, lines_single h1 hne]
  have : vLineFormat raw = vLineFormat (chomp raw) := by
    rw [hv] at h4 ⊢
    rw [h4]
    unfold vLineFormat
    have hx : 'x' ∈ 'v' :: r ++ w ↔ 'x' ∈ 'v' :: r := by
      have := white_noX hw
      simp [this]
    by_cases hxx : 'x' ∈ 'v' :: r
    · rw [if_pos hxx, if_pos (hx.2 hxx)]
    · rw [if_neg hxx, if_neg fun h => hxx (hx.1 h)]
      simp only [List.cons_append, trim_append_white hw]
  rw [this]

theorem listsLits_head {ls : List Lit} {t : Text} (h : ListsLits ls t) : ∃ r, t = 'v' :: ' ' :: r := by
  cases h <;> exact ⟨_, rfl⟩

theorem varValue_foldl {ls : List Lit} {v : Nat} (h : ∀ x ∈ ls, x.var ≠ v) (a : Assignment) :
    (ls.foldl Assignment.assignLit a).varValue v = a.varValue v := by
  induction ls generalizing a with
  | nil => rfl
  | cons l ls ih =>
    rw [List.foldl_cons, ih (fun x hx => h x (List.mem_cons_of_mem _ hx)), Assignment.varValue_assignLit]
    rw [if_neg (Ne.symm (h l List.mem_cons_self))]

theorem readSolution_lits {t : Text} : ∀ (raws : List Text) (lits : List Lit) (a : Assignment), (∀ raw ∈ raws, raw ∈ readLines t) →
    SolutionLines (raws.map chomp) lits → Free a lits → Distinct lits →
    readSolution a raws = .ok (lits.foldl Assignment.assignLit a) := by
  intro raws
  induction raws with
  | nil => intro lits a _ h _ _; cases h; rfl
  | cons raw raws ih =>
    intro lits a hm h hf hd
    have hraw := hm raw List.mem_cons_self
    obtain ⟨h1, h2, h3, w, hw, h4⟩ := readLines_raw hraw
    rw [List.map_cons] at h
    cases h with
    | other hh h =>
      have hs : startsWith ['v'] raw = false := by
        rw [Bool.eq_false_iff]
        intro hs
        obtain ⟨r, hr⟩ := startsWith_iff.1 hs
        cases hc : chomp raw with
        | nil =>
          rw [hc, List.nil_append] at h4
          have := hw 'v' (by rw [← h4, hr]; simp)
          revert this; decide
        | cons c r' =>
          rw [hc] at hh h4
          rw [h4] at hr
          simp at hr hh
          exact hh hr.1
      simp only [readSolution, hs]
      exact ih lits a (fun r hr => hm r (List.mem_cons_of_mem _ hr)) h hf hd
    | @value _ ls _ ls' hh h =>
      obtain ⟨r, hr⟩ := listsLits_head hh
      have hs : startsWith ['v'] raw = true := startsWith_iff.2 ⟨' ' :: r ++ w, by rw [h4, hr]; rfl⟩
      simp only [readSolution, hs, if_true]
      have hd' : Distinct ls ∧ Distinct ls' ∧ ∀ x ∈ ls, ∀ y ∈ ls', x.var ≠ y.var := List.pairwise_append.1 hd
      rw [extendFromVline_raw hraw hr, hh.extend h1 (fun l hl => hf l (List.mem_append_left _ hl)) hd'.1]
      simp only [List.foldl_append]
      refine ih ls' _ (fun r hr => hm r (List.mem_cons_of_mem _ hr)) h ?_ hd'.2.1
      intro y hy
      rw [varValue_foldl (fun x hx => hd'.2.2 x hx y hy)]
      exact hf y (List.mem_append_right _ hy)

/-- C60: the solution checker reads the literals that are listed in the file. -/
theorem C60_read {t : Text} {lits : List Lit} (h : SolutionLines (lines t) lits) (hd : lits.Pairwise fun x y => x.var ≠ y.var) :
    readSolution Assignment.empty (readLines t) = .ok (Assignment.ofLits lits) :=
  readSolution_lits _ lits _ (fun _ h => h) h (fun l _ => by simp [Assignment.varValue, Assignment.empty]) hd

theorem unsatConstraint_none {VM : Type} {s : SatInstance VM} {a : Assignment}
    (hfit : ∀ c ∈ s.pbs, notFalseWeight a c.lits ≤ isizeMax) (h : s.unsatConstraint a = none) {b : Asg}
    (hb : a.completedBy b) : s.sat b := by
  unfold SatInstance.unsatConstraint at h
  cases h1 : s.cnf.find? (fun c => decide (Clause.evaluate c a ≠ .true)) with
  | some c => rw [h1] at h; cases h
  | none =>
    rw [h1] at h
    simp only at h
    cases h2 : s.cards.find? (fun c => decide (c.evaluate a ≠ .true)) with
    | some c => rw [h2] at h; cases h
    | none =>
      rw [h2] at h
      simp only at h
      cases h3 : s.pbs.find? (fun c => decide (c.evaluate a ≠ some .true)) with
      | some c => rw [h3] at h; cases h
      | none =>
        refine ⟨fun c hc => ?_, fun c hc => ?_, fun c hc => ?_⟩
        · have := List.find?_eq_none.1 h1 c hc
          simp only [decide_eq_true_eq, ne_eq, Decidable.not_not] at this
          obtain ⟨l, hl, hv⟩ := (C08_evaluate c a).1.1 this
          exact ⟨l, hl, holds_of_litValue_true hb hv⟩
        · have := List.find?_eq_none.1 h2 c hc
          simp only [decide_eq_true_eq, ne_eq, Decidable.not_not] at this
          exact (C14_card_evaluate_partial c a).1 this b hb
        · have := List.find?_eq_none.1 h3 c hc
          simp only [decide_eq_true_eq, ne_eq, Decidable.not_not] at this
          obtain ⟨v, he, h3, _, _⟩ := C14_pb_evaluate_partial c a (hfit c hc)
          rw [this] at he
          exact h3 (Option.some.inj he).symm b hb

theorem completedBy_ofLits {lits : List Lit} (hd : lits.Pairwise fun x y => x.var ≠ y.var) {b : Asg}
    (hb : ∀ l ∈ lits, l.holds b = true) : (Assignment.ofLits lits).completedBy b := by
  obtain ⟨h1, h2⟩ := C46_values_meaning hd
  intro v
  by_cases hv : ∃ l ∈ lits, l.var = v
  · obtain ⟨l, hl, rfl⟩ := hv
    have hlv := h1 l hl
    have hh := hb l hl
    rw [Assignment.litValue_true_iff] at hlv
    cases hn : l.isNeg <;> rw [hn] at hlv <;> simp at hlv <;> rw [hlv] <;> simp [Lit.holds, hn] at hh ⊢ <;> exact hh
  · rw [h2 v fun l hl e => hv ⟨l, hl, e⟩]; simp

/-- C60: if the file lists a value of every variable, the solution checker accepts it exactly if it is a solution, it
prints the values of the objectives, and else it names a constraint that is not satisfied. `b` gives the listed values. -/
theorem C60_check {i : MultiOptInstance BasicVM} {t : Text} {lits : List Lit} (h : SolutionLines (lines t) lits)
    (hd : lits.Pairwise fun x y => x.var ≠ y.var) {b : Asg} (hb : ∀ l ∈ lits, l.holds b = true)
    (hc : ∀ v, i.constrs.hasVar v ∨ (∃ o ∈ i.objs, o.hasVar v) → ∃ l ∈ lits, l.var = v)
    (hfit : ∀ c ∈ i.constrs.pbs, notFalseWeight (Assignment.ofLits lits) c.lits ≤ isizeMax) :
    (i.constrs.sat b → checkSolution i t = .values (i.objs.map fun o => o.value b)) ∧
    (¬ i.constrs.sat b → ∃ c, checkSolution i t = .unsatisfied c ∧ i.constrs.hasConstraint c ∧ ¬ c.sat b) := by
  have hcomp := completedBy_ofLits hd hb
  have hass : ∀ v, (∃ l ∈ lits, l.var = v) → (Assignment.ofLits lits).varValue v ≠ .dontCare := by
    rintro v ⟨l, hl, rfl⟩
    have := (Assignment.litValue_true_iff _ _).1 ((C46_values_meaning hd).1 l hl)
    rw [this]
    cases l.isNeg <;> simp
  obtain ⟨_, _, h3, h4⟩ := C49_evaluate_total i.constrs _ b hcomp (fun v hv => hass v (hc v (.inl hv))) hfit
  have hu : i.decompose.1.unsatConstraint (Assignment.ofLits lits) = i.constrs.unsatConstraint (Assignment.ofLits lits) := rfl
  constructor
  · intro hsat
    have := h3.2 hsat
    simp only [checkSolution, C60_read h hd, hu, this]
    congr 1
    exact List.map_congr_left fun o ho => C47_objective_evaluate o _ b hcomp fun v hv => hass v (hc v (.inr ⟨o, ho, hv⟩))
  · intro hsat
    cases hcc : i.constrs.unsatConstraint (Assignment.ofLits lits) with
    | none => exact absurd (h3.1 hcc) hsat
    | some c => exact ⟨c, by simp only [checkSolution, C60_read h hd, hu, hcc], h4 c hcc⟩

/-- C60 for files that do not list all variables: if the solution checker accepts, any way to complete the solution
satisfies the constraints, and the printed values are lower bounds of the values of the objectives. -/
theorem C60_incomplete {i : MultiOptInstance BasicVM} {t : Text} {lits : List Lit} (h : SolutionLines (lines t) lits)
    (hd : lits.Pairwise fun x y => x.var ≠ y.var) {b : Asg} (hb : ∀ l ∈ lits, l.holds b = true)
    (hfit : ∀ c ∈ i.constrs.pbs, notFalseWeight (Assignment.ofLits lits) c.lits ≤ isizeMax)
    {vs : List Int} (hv : checkSolution i t = .values vs) :
    i.constrs.sat b ∧ vs.length = i.objs.length ∧ ∀ (j : Nat) o val, i.objs[j]? = some o → vs[j]? = some val → val ≤ o.value b := by
  have hcomp := completedBy_ofLits hd hb
  have hu : i.decompose.1.unsatConstraint (Assignment.ofLits lits) = i.constrs.unsatConstraint (Assignment.ofLits lits) := rfl
  simp only [checkSolution, C60_read h hd, hu] at hv
  cases hcc : i.constrs.unsatConstraint (Assignment.ofLits lits) with
  | some c => rw [hcc] at hv; cases hv
  | none =>
    rw [hcc] at hv
    injection hv with hv
    subst hv
    refine ⟨unsatConstraint_none hfit hcc hcomp, by simp [MultiOptInstance.decompose], fun j o val ho hval => ?_⟩
    simp [MultiOptInstance.decompose, ho] at hval
    rw [← hval]
    exact C47_objective_lower_bound o _ b hcomp

/-- An instance with two objectives. -/
def checkDemo : MultiOptInstance BasicVM :=
  ⟨⟨[[Lit.pos 0, Lit.pos 1]], [.ub [Lit.pos 0, Lit.pos 1] 1], [], ⟨2⟩⟩,
    [.weighted 1 [(Lit.pos 0, 3)] [], .weighted 0 [(Lit.negOf 0, 2)] []]⟩

theorem checkDemo_lines : SolutionLines (lines "s OPTIMUM FOUND\nv 1 -2 0\n".toList) [Lit.pos 0, Lit.negOf 1] := by
  have e : lines "s OPTIMUM FOUND\nv 1 -2 0\n".toList = ["s OPTIMUM FOUND".toList, "v 1 -2 0".toList] := by decide
  rw [e]
  refine .other (by decide) (.value (lits := [Lit.pos 0, Lit.negOf 1]) ?_ .nil)
  have e2 : "v 1 -2 0".toList = 'v' :: ' ' :: ([] ++ ("1".toList ++ (' ' :: ([] ++ ("-2".toList ++ (' ' :: ([] ++ "0".toList))))))) := by
    decide
  have e3 : ([1, -2, 0] : List Int).map showInt = ["1".toList, "-2".toList, "0".toList] := by decide
  rw [e2]
  refine .satComp (zs := [1, -2, 0]) ?_ (by decide) (by decide) (by decide)
  rw [e3]
  exact .cons (by decide) (by decide) (by decide) (by decide) (.cons (by decide) (by decide) (by decide) (by decide)
    (.last (by decide) (by decide) (by decide)))

/-- The assumptions of C60 hold for a solution of this instance. -/
example : checkSolution checkDemo "s OPTIMUM FOUND\nv 1 -2 0\n".toList = .values [4, 0] := by
  have h := (C60_check (i := checkDemo) (b := fun v => v == 0) checkDemo_lines (by decide) (by decide) (by
    intro v hv
    have : v = 0 ∨ v = 1 := by
      rcases hv with (⟨c, hc, l, hl, rfl⟩ | ⟨c, hc, l, hl, rfl⟩ | ⟨c, hc, _⟩) | ⟨o, ho, hv⟩
      · simp [checkDemo] at hc; subst hc; simp at hl; rcases hl with rfl | rfl <;> simp
      · simp [checkDemo] at hc; subst hc; simp [CardConstraint.lits] at hl; rcases hl with rfl | rfl <;> simp
      · cases hc
      · simp [checkDemo] at ho; rcases ho with rfl | rfl <;> simp [Objective.hasVar] at hv <;> omega
    rcases this with rfl | rfl
    · exact ⟨Lit.pos 0, by simp, by simp⟩
    · exact ⟨Lit.negOf 1, by simp, by simp⟩) (by intro c hc; cases hc)).1
  refine h ⟨?_, ?_, by intro c hc; cases hc⟩
  · intro c hc; simp [checkDemo] at hc; subst hc; exact ⟨Lit.pos 0, by simp, by simp⟩
  · intro c hc; simp [checkDemo] at hc; subst hc; simp [CardConstraint.sat, countTrue]

/-- C60 is violated: the values that are printed for a solution that does not list all variables are not always the
values of a solution. -/
theorem C60_violated_incomplete : ∃ i : MultiOptInstance BasicVM, ∃ t lits, SolutionLines (lines t) lits ∧
    checkSolution i t = .values [0, 0] ∧ ∀ b, (i.objs.map fun o => o.value b) ≠ [0, 0] := by
  refine ⟨⟨⟨[], [], [], ⟨1⟩⟩, [.weighted 0 [(Lit.pos 0, 1)] [], .weighted 0 [(Lit.negOf 0, 1)] []]⟩, [], [], .nil, rfl, fun b => ?_⟩
  cases h : b 0 <;> simp [Objective.value, h, wsum, clsCost]

end RustSat
