import Verif.Spec.SolverOutput
import Verif.Lemmas.Opb
import Verif.Lemmas.Dimacs2
import Verif.Props.Types

namespace RustSat.OutputSpec
open Text DimacsSpec

/-! ### Status lines -/

theorem startsWith_iff {p s : Text} : startsWith p s = true ↔ ∃ r, s = p ++ r := by
  rw [startsWith, List.isPrefixOf_iff_prefix]
  constructor
  · rintro ⟨r, h⟩; exact ⟨r, h.symm⟩
  · rintro ⟨r, h⟩; exact ⟨r, h.symm⟩

theorem status_iff {l : Text} : startsWith ['s', ' '] l = true ↔ StatusLine l := startsWith_iff

theorem value_iff {l : Text} : startsWith ['v', ' '] l = true ↔ ValueLine l := startsWith_iff

theorem trimStart_split (t : Text) : ∃ w, White w ∧ t = w ++ trimStart t := by
  induction t with
  | nil => exact ⟨[], (fun c hc => nomatch hc), rfl⟩
  | cons c t ih =>
    by_cases hc : isWs c = true
    · obtain ⟨w, hw, e⟩ := ih
      refine ⟨c :: w, ?_, ?_⟩
      · intro d hd
        cases hd with
        | head => exact hc
        | tail _ hd => exact hw d hd
      · have : trimStart (c :: t) = trimStart t := by simp [trimStart, List.dropWhile_cons, hc]
        rw [this, List.cons_append, ← e]
    · refine ⟨[], (fun c hc => nomatch hc), ?_⟩
      simp [trimStart, List.dropWhile_cons, hc]

theorem says_iff {w l : Text} (hl : StatusLine l) {c : Char} {r : Text} (hw : w = c :: r) (hc : isWs c = false) :
    startsWith w (trimStart (l.drop 1)) = true ↔ Says w l := by
  obtain ⟨t, e⟩ := hl
  subst e
  rw [startsWith_iff]
  have hd : ('s' :: ' ' :: t).drop 1 = ' ' :: t := rfl
  have hs : trimStart (' ' :: t) = trimStart t := rfl
  rw [hd, hs]
  constructor
  · rintro ⟨r', h⟩
    obtain ⟨s, h1, h2⟩ := trimStart_split t
    rw [h] at h2
    exact ⟨s, r', h1, by rw [← h2]⟩
  · rintro ⟨s, r', h1, h2⟩
    simp only [List.cons.injEq, true_and] at h2
    subst h2
    refine ⟨r', ?_⟩
    rw [trimStart_append h1, hw]
    simp [trimStart, List.dropWhile_cons, hc]

theorem Says.status {w l : Text} (h : Says w l) : StatusLine l := by
  obtain ⟨s, r, _, e⟩ := h
  exact ⟨_, e⟩

theorem prefix_unique {p q s : Text} (hp : startsWith p s = true) (hq : startsWith q s = true) (hl : q.length ≤ p.length) :
    startsWith q p = true := by
  rw [startsWith, List.isPrefixOf_iff_prefix] at *
  exact List.prefix_of_prefix_length_le hq hp hl

/-- What the loop does with a status line. -/
theorem sStep_cases (b : Bool) (l : Text) :
    (SaysUnsat l ∧ ¬ SaysSat l ∧ ¬ SaysUnknown l ∧ sStep b l = .done (.ok .unsat)) ∨
    (SaysUnknown l ∧ ¬ SaysSat l ∧ ¬ SaysUnsat l ∧ sStep b l = .done (.ok .unknown)) ∨
    (SaysSat l ∧ ¬ SaysUnsat l ∧ ¬ SaysUnknown l ∧ sStep b l = .goOn true) ∨
    (Malformed l ∧ sStep b l = .done (.err .invalidSLine)) ∨ (¬ StatusLine l ∧ sStep b l = .goOn b) := by
  by_cases hs : StatusLine l
  · have h1 := says_iff (w := "UNSATISFIABLE".toList) hs rfl (by decide)
    have h2 := says_iff (w := "UNKNOWN".toList) hs rfl (by decide)
    have h3 := says_iff (w := "INDETERMINATE".toList) hs rfl (by decide)
    have h4 := says_iff (w := "SATISFIABLE".toList) hs rfl (by decide)
    have hs' := status_iff.mpr hs
    have e12 : ∀ s, startsWith "UNSATISFIABLE".toList s = true → startsWith "UNKNOWN".toList s = true → False :=
      fun s hp hq => absurd (prefix_unique hp hq (by decide)) (by decide)
    have e13 : ∀ s, startsWith "UNSATISFIABLE".toList s = true → startsWith "INDETERMINATE".toList s = true → False :=
      fun s hp hq => absurd (prefix_unique hp hq (by decide)) (by decide)
    have e14 : ∀ s, startsWith "UNSATISFIABLE".toList s = true → startsWith "SATISFIABLE".toList s = true → False :=
      fun s hp hq => absurd (prefix_unique hp hq (by decide)) (by decide)
    have e24 : ∀ s, startsWith "UNKNOWN".toList s = true → startsWith "SATISFIABLE".toList s = true → False :=
      fun s hp hq => absurd (prefix_unique hq hp (by decide)) (by decide)
    have e34 : ∀ s, startsWith "INDETERMINATE".toList s = true → startsWith "SATISFIABLE".toList s = true → False :=
      fun s hp hq => absurd (prefix_unique hp hq (by decide)) (by decide)
    unfold SaysUnsat SaysSat SaysUnknown Malformed sStep
    unfold SaysUnsat SaysSat SaysUnknown
    rw [← h1, ← h2, ← h3, ← h4, if_pos hs']
    generalize trimStart (l.drop 1) = s at *
    cases c1 : startsWith "UNSATISFIABLE".toList s with
    | true =>
      left
      exact ⟨rfl, fun h => e14 s c1 h, fun h => h.elim (e12 s c1) (e13 s c1), by simp⟩
    | false =>
      right
      cases c4 : startsWith "SATISFIABLE".toList s with
      | true =>
        right; left
        have n2 : startsWith "UNKNOWN".toList s = false := by
          cases h : startsWith "UNKNOWN".toList s with
          | false => rfl
          | true => exact absurd c4 (fun h' => e24 s h h')
        have n3 : startsWith "INDETERMINATE".toList s = false := by
          cases h : startsWith "INDETERMINATE".toList s with
          | false => rfl
          | true => exact absurd c4 (fun h' => e34 s h h')
        rw [n2, n3]
        simp
      | false =>
        cases c2 : startsWith "UNKNOWN".toList s with
        | true => left; simp
        | false =>
          cases c3 : startsWith "INDETERMINATE".toList s with
          | true => left; simp
          | false => right; right; left; simp [hs]
  · refine Or.inr (Or.inr (Or.inr (Or.inr ⟨hs, ?_⟩)))
    rw [sStep, if_neg (fun h => hs (status_iff.mp h))]

/-! ### The loop -/

theorem status_not_value {l : Text} (h : StatusLine l) : ¬ ValueLine l := by
  rintro ⟨r, e⟩
  obtain ⟨r', e'⟩ := h
  rw [e] at e'
  cases e'

theorem vStep_other {sol : Option Assignment} {l : Text} (h : ¬ ValueLine l) : vStep sol l = .ok sol := by
  unfold vStep
  rw [if_neg (fun h' => h (value_iff.mp h'))]

theorem vStep_value {sol : Option Assignment} {l : Text} (h : ValueLine l) :
    vStep sol l = match (sol.getD Assignment.empty).extendFromVline l with
      | .ok a => .ok (some a)
      | .err e => .err e
      | .panic => .panic := by
  unfold vStep
  rw [if_pos (value_iff.mpr h)]
  cases sol <;> rfl

/-- Quiet lines leave the loop running. -/
theorem loop_quiet {ls : List Text} (hd : ∀ l ∈ ls, ¬ Decisive l) {a a' : Assignment} (hc : Collects a ls a') (rest : List Text) :
    ∀ (b : Bool) (sol : Option Assignment), sol.getD Assignment.empty = a → ∃ b' sol', 
      solverLoop b sol (ls ++ rest) = solverLoop b' sol' rest ∧ sol'.getD Assignment.empty = a' ∧
      (b' = true ↔ b = true ∨ ∃ l ∈ ls, SaysSat l) ∧ (sol'.isSome = true ↔ sol.isSome = true ∨ ∃ l ∈ ls, ValueLine l) := by
  induction hc with
  | nil => intro b sol h; exact ⟨b, sol, rfl, h, by simp, by simp⟩
  | @other a l ls a' hv hc ih =>
    intro b sol h
    have hd' : ∀ l ∈ ls, ¬ Decisive l := fun l hl => hd l (List.mem_cons_of_mem _ hl)
    have hl := hd l List.mem_cons_self
    rcases sStep_cases b l with ⟨h1, h2, _, _⟩ | ⟨h1, h2, _, _⟩ | ⟨h1, _, _, h4⟩ | ⟨h1, _⟩ | ⟨h1, h4⟩
    · exact absurd ⟨h1.status, h2⟩ hl
    · refine absurd ⟨?_, h2⟩ hl
      rcases h1 with h1 | h1 <;> exact h1.status
    · obtain ⟨b', sol', e, h5, h6, h7⟩ := ih hd' true sol h
      refine ⟨b', sol', ?_, h5, ?_, ?_⟩
      · rw [List.cons_append, solverLoop, h4]
        simp only [vStep_other hv]
        exact e
      · rw [h6]; simp [h1]
      · rw [h7]; simp [hv]
    · exact absurd ⟨h1.1, h1.2.2.1⟩ hl
    · obtain ⟨b', sol', e, h5, h6, h7⟩ := ih hd' b sol h
      refine ⟨b', sol', ?_, h5, ?_, ?_⟩
      · rw [List.cons_append, solverLoop, h4]
        simp only [vStep_other hv]
        exact e
      · have : ¬ SaysSat l := fun h => h1 h.status
        rw [h6]; simp [this]
      · rw [h7]; simp [hv]
  | @value a l a1 ls a' hv he hc ih =>
    intro b sol h
    have hd' : ∀ l ∈ ls, ¬ Decisive l := fun l hl => hd l (List.mem_cons_of_mem _ hl)
    have hns : ¬ StatusLine l := fun h => status_not_value h hv
    obtain ⟨b', sol', e, h5, h6, h7⟩ := ih hd' b (some a1) rfl
    refine ⟨b', sol', ?_, h5, ?_, ?_⟩
    · rw [List.cons_append, solverLoop, sStep, if_neg (fun h => hns (status_iff.mp h))]
      simp only [vStep_value hv, h, he]
      exact e
    · have : ¬ SaysSat l := fun h => hns h.status
      rw [h6]; simp [this]
    · rw [h7]; simp [hv]

/-- The lines are quiet up to the end, up to a decisive line, or up to a value line that cannot be read. -/
theorem split_lines (ls : List Text) (a : Assignment) :
    ((∀ l ∈ ls, ¬ Decisive l) ∧ ∃ a', Collects a ls a') ∨
    ∃ pre l post a', ls = pre ++ l :: post ∧ (∀ l ∈ pre, ¬ Decisive l) ∧ Collects a pre a' ∧
      (Decisive l ∨ ValueLine l ∧ ∀ a1, a'.extendFromVline l ≠ .ok a1) := by
  induction ls generalizing a with
  | nil => exact Or.inl ⟨(fun l hl => nomatch hl), a, .nil⟩
  | cons l ls ih =>
    by_cases hd : Decisive l
    · exact Or.inr ⟨[], l, ls, a, rfl, (fun l hl => nomatch hl), .nil, Or.inl hd⟩
    · have step : ∀ a1, (∀ ls' a', Collects a1 ls' a' → Collects a (l :: ls') a') →
          ((∀ x ∈ l :: ls, ¬ Decisive x) ∧ ∃ a', Collects a (l :: ls) a') ∨
          ∃ pre x post a', l :: ls = pre ++ x :: post ∧ (∀ l ∈ pre, ¬ Decisive l) ∧ Collects a pre a' ∧
            (Decisive x ∨ ValueLine x ∧ ∀ a1, a'.extendFromVline x ≠ .ok a1) := by
        intro a1 hc
        rcases ih a1 with ⟨h1, a', h2⟩ | ⟨pre, x, post, a', e, h1, h2, h3⟩
        · refine Or.inl ⟨fun x hx => ?_, a', hc _ _ h2⟩
          cases hx with
          | head => exact hd
          | tail _ hx => exact h1 x hx
        · refine Or.inr ⟨l :: pre, x, post, a', by rw [e]; rfl, fun y hy => ?_, hc _ _ h2, h3⟩
          cases hy with
          | head => exact hd
          | tail _ hy => exact h1 y hy
      by_cases hv : ValueLine l
      · cases he : a.extendFromVline l with
        | ok a1 => exact step a1 fun ls' a' h => .value hv he h
        | err e => exact Or.inr ⟨[], l, ls, a, rfl, (fun l hl => nomatch hl), .nil, Or.inr ⟨hv, by simp [he]⟩⟩
        | panic => exact Or.inr ⟨[], l, ls, a, rfl, (fun l hl => nomatch hl), .nil, Or.inr ⟨hv, by simp [he]⟩⟩
      · exact step a fun ls' a' h => .other hv h

/-! ### Words -/

theorem splitWs_ws {c : Char} (h : isWs c = true) (t : Text) : splitWs (c :: t) = splitWs t := by
  conv => lhs; unfold splitWs
  rw [if_pos h]

theorem splitWs_one {c b : Char} (h : isWs c = false) (hb : isWs b = true) (t : Text) :
    splitWs (c :: b :: t) = [c] :: splitWs (b :: t) := by
  conv => lhs; unfold splitWs
  simp [h, hb]

theorem splitWs_more {c b : Char} {t w : Text} {ws : List Text} (h : isWs c = false) (hb : isWs b = false)
    (e : splitWs (b :: t) = w :: ws) : splitWs (c :: b :: t) = (c :: w) :: ws := by
  conv => lhs; unfold splitWs
  simp [h, hb, e]

theorem splitWs_white {w : Text} (h : White w) (t : Text) : splitWs (w ++ t) = splitWs t := by
  induction w with
  | nil => rfl
  | cons c w ih =>
    have hc : isWs c = true := h c List.mem_cons_self
    rw [List.cons_append, splitWs_ws hc]
    exact ih fun d hd => h d (List.mem_cons_of_mem _ hd)

theorem splitWs_word {x t : Text} (hx : x ≠ []) (hw : ∀ c ∈ x, isWs c = false)
    (ht : t = [] ∨ ∃ b r, t = b :: r ∧ isWs b = true) : splitWs (x ++ t) = x :: splitWs t := by
  induction x with
  | nil => exact absurd rfl hx
  | cons c x ih =>
    have hc : isWs c = false := hw c List.mem_cons_self
    cases x with
    | nil =>
      rcases ht with e | ⟨b, r, e, hb⟩
      · subst e; simp [splitWs, hc]
      · subst e
        exact splitWs_one hc hb r
    | cons d x =>
      have hd : isWs d = false := hw d (by simp)
      have := ih (by simp) fun c hc => hw c (List.mem_cons_of_mem _ hc)
      exact splitWs_more hc hd this

theorem Words.split {xs : List Text} {t : Text} (h : Words xs t) : splitWs t = xs := by
  induction h with
  | nil hw =>
    have := splitWs_white hw []
    rw [List.append_nil] at this
    exact this
  | last hw hx hn =>
    rw [splitWs_white hw]
    have := splitWs_word (t := []) hx hn (Or.inl rfl)
    rw [List.append_nil] at this
    exact this
  | @cons w x b xs t hw hx hn hb _ ih =>
    rw [splitWs_white hw, splitWs_word hx hn (Or.inr ⟨_, _, rfl, hb⟩), splitWs_ws hb, ih]

theorem Words.mem {xs : List Text} {t : Text} (h : Words xs t) : ∀ c ∈ t, isWs c = true ∨ ∃ x ∈ xs, c ∈ x := by
  induction h with
  | nil hw => exact fun c hc => Or.inl (hw c hc)
  | last hw hx hn =>
    intro c hc
    rcases List.mem_append.mp hc with hc | hc
    · exact Or.inl (hw c hc)
    · exact Or.inr ⟨_, by simp, hc⟩
  | @cons w x b xs t hw hx hn hb _ ih =>
    intro c hc
    rcases List.mem_append.mp hc with hc | hc
    · exact Or.inl (hw c hc)
    rcases List.mem_append.mp hc with hc | hc
    · exact Or.inr ⟨x, by simp, hc⟩
    cases hc with
    | head => exact Or.inl hb
    | tail _ hc =>
      rcases ih c hc with h | ⟨y, hy, h⟩
      · exact Or.inl h
      · exact Or.inr ⟨y, List.mem_cons_of_mem _ hy, h⟩

theorem Words.mem' {xs : List Text} {t : Text} (h : Words xs t) : ∀ x ∈ xs, ∀ c ∈ x, c ∈ t := by
  induction h with
  | nil hw => exact fun x hx => nomatch hx
  | last hw hx hn =>
    intro x hx c hc
    rw [List.mem_singleton] at hx
    subst hx
    exact List.mem_append_right _ hc
  | @cons w x b xs t hw hx hn hb _ ih =>
    intro y hy c hc
    cases hy with
    | head => exact List.mem_append_right _ (List.mem_append_left _ hc)
    | tail _ hy => exact List.mem_append_right _ (List.mem_append_right _ (List.mem_cons_of_mem _ (ih y hy c hc)))

theorem trim_split (t : Text) : ∃ w w', White w ∧ White w' ∧ t = w ++ (trim t ++ w') := by
  obtain ⟨w, hw, e⟩ := trimStart_split t
  obtain ⟨w', hw', e'⟩ := trimStart_split (trimStart t).reverse
  refine ⟨w, w'.reverse, hw, fun c hc => hw' c (List.mem_reverse.mp hc), ?_⟩
  have : trimStart t = trim t ++ w'.reverse := by
    have h2 : (trimStart t) = (w' ++ trimStart (trimStart t).reverse).reverse := by rw [← e', List.reverse_reverse]
    rw [List.reverse_append] at h2
    exact h2
  rw [← this]
  exact e

/-- A line is taken to be in the MaxSAT Evaluation format only if it has at most one word. -/
theorem bits_words {t : Text} (h : (trim t).all isBit = true) :
    (splitWs t = [] ∧ trim t = []) ∨ splitWs t = [trim t] := by
  obtain ⟨w, w', hw, hw', e⟩ := trim_split t
  have hn : ∀ c ∈ trim t, isWs c = false := by
    intro c hc
    have := List.all_eq_true.mp h c hc
    simp only [isBit, Bool.or_eq_true, beq_iff_eq] at this
    rcases this with e | e <;> subst e <;> decide
  have hs : splitWs t = splitWs (trim t ++ w') := by
    conv => lhs; rw [e]
    exact splitWs_white hw _
  have hw0 : splitWs w' = [] := by
    have := splitWs_white hw' []
    rw [List.append_nil] at this
    exact this
  by_cases ht : trim t = []
  · left
    rw [ht, List.nil_append, hw0] at hs
    exact ⟨hs, ht⟩
  · right
    rw [hs, splitWs_word ht hn, hw0]
    cases w' with
    | nil => exact Or.inl rfl
    | cons b r => exact Or.inr ⟨b, r, rfl, hw' b List.mem_cons_self⟩

/-! ### Numbers -/

theorem parseI32_digits {ds : Text} (hn : ds ≠ []) (hd : ∀ c ∈ ds, isDigit c = true) (h : readNat ds ≤ 2147483647) :
    parseI32 ds = some (readNat ds : Int) := by
  have hall : ds.all isDigit = true := List.all_eq_true.mpr hd
  unfold parseI32
  split
  · exact absurd (hd '-' List.mem_cons_self) (by decide)
  · exact absurd (hd '+' List.mem_cons_self) (by decide)
  · rw [if_pos ⟨hn, hall, h⟩]

theorem parseI32_showInt {z : Int} (h : -2147483647 ≤ z ∧ z ≤ 2147483647) : parseI32 (showInt z) = some z := by
  have hd := isDigit_showNat z.natAbs
  have hr := readNat_showNat z.natAbs
  unfold showInt
  by_cases hz : z < 0
  · rw [if_pos hz, parseI32]
    rw [if_pos ⟨showNat_ne_nil _, List.all_eq_true.mpr hd, by omega⟩, hr]
    congr 1; omega
  · rw [if_neg hz, parseI32_digits (showNat_ne_nil _) hd (by omega), hr]
    congr 1; omega

/-! ### Value lines -/

/-- Variables without a value. -/
def Free (a : Assignment) (ls : List Lit) : Prop := ∀ l ∈ ls, a.varValue l.var = .dontCare

/-- Literals of pairwise different variables. -/
def Distinct (ls : List Lit) : Prop := ls.Pairwise fun x y => x.var ≠ y.var

theorem Free.step {a : Assignment} {l : Lit} {ls : List Lit} (h : Free a (l :: ls)) (hd : Distinct (l :: ls)) :
    Free (a.assignLit l) ls := by
  intro l' hl'
  have hne := List.rel_of_pairwise_cons hd hl'
  rw [Assignment.varValue_assignLit, if_neg (fun e => hne e.symm)]
  exact h l' (List.mem_cons_of_mem _ hl')

theorem free_value {a : Assignment} {l : Lit} (h : a.varValue l.var = .dontCare) : a.litValue l = .dontCare := by
  unfold Assignment.litValue
  rw [h]
  split <;> rfl

/-- The number of a literal in the SAT competition format. -/
def num (l : Lit) : Int := if l.isNeg then -((l.var : Int) + 1) else (l.var : Int) + 1

theorem extendSatComp_num {a : Assignment} {l : Lit} (hl : l.var ≤ 2147483646) (h : a.varValue l.var = .dontCare) :
    a.extendSatComp [num l] = .ok (a.assignLit l) := by
  have hf : Lit.fromIpasir (num l) = .ok l := by
    have h0 : ¬ num l = 0 := by unfold num; split <;> omega
    have ha : (num l).natAbs - 1 = l.var := by unfold num; split <;> omega
    have hn : decide (num l < 0) = l.isNeg := by
      unfold num
      cases l.isNeg <;> simp <;> omega
    unfold Lit.fromIpasir Lit.newWithError
    have hm : maxVarIdx = 2147483647 := rfl
    rw [if_neg h0, if_neg (by omega), ha, hn, Lit.mk'_var_isNeg]
  have h0 : ¬ num l = 0 := by unfold num; split <;> omega
  rw [Assignment.extendSatComp, if_neg h0, hf]
  simp only [free_value h]
  rw [if_neg (by simp)]
  rfl

theorem extendSatWords_ok : ∀ (zs : List Int) (ls : List Lit) (a : Assignment),
    (∀ z ∈ zs, -2147483647 ≤ z ∧ z ≤ 2147483647) → zs.filter (· ≠ 0) = ls.map num → Free a ls → Distinct ls →
    a.extendSatWords (zs.map showInt) = .ok (ls.foldl Assignment.assignLit a) := by
  intro zs
  induction zs with
  | nil =>
    intro ls a _ he _ _
    cases ls with
    | nil => rfl
    | cons l ls => cases he
  | cons z zs ih =>
    intro ls a hr he hf hd
    have hz := hr z List.mem_cons_self
    have hr' : ∀ z ∈ zs, -2147483647 ≤ z ∧ z ≤ 2147483647 := fun z hz => hr z (List.mem_cons_of_mem _ hz)
    rw [List.map_cons, Assignment.extendSatWords, parseI32_showInt hz]
    by_cases h0 : z = 0
    · subst h0
      have : Assignment.extendSatComp a [0] = .ok a := rfl
      simp only [this]
      exact ih ls a hr' (by simpa using he) hf hd
    · have he' : z :: zs.filter (· ≠ 0) = ls.map num := by rw [← he, List.filter_cons, if_pos (by simp [h0])]
      cases ls with
      | nil => cases he'
      | cons l ls =>
        simp only [List.map_cons, List.cons.injEq] at he'
        obtain ⟨e1, e2⟩ := he'
        have hv : l.var ≤ 2147483646 := by
          have h1 : z = num l := e1
          rw [h1] at hz
          unfold num at hz
          split at hz <;> omega
        have hs : a.extendSatComp [z] = .ok (a.assignLit l) := by
          rw [e1]
          exact extendSatComp_num hv (hf l List.mem_cons_self)
        simp only [hs]
        exact ih ls (a.assignLit l) hr' e2 (hf.step hd) hd.tail

theorem extendPbWords_ok : ∀ (ls : List Lit) (ws : List Text) (a : Assignment), ws.length = ls.length →
    (∀ p ∈ ls.zip ws, OpbSpec.LitText 1 p.1 p.2) → Free a ls → Distinct ls →
    a.extendPbWords ws = .ok (ls.foldl Assignment.assignLit a) := by
  intro ls
  induction ls with
  | nil =>
    intro ws a hl _ _ _
    rw [List.length_eq_zero_iff.mp hl]
    rfl
  | cons l ls ih =>
    intro ws a hl hz hf hd
    cases ws with
    | nil => cases hl
    | cons w ws =>
      have h1 := OpbSpec.literal_ok (opts := Opb.Options.dflt) (s := []) (hz (l, w) (by simp)) (fun c r e => nomatch e)
      rw [List.append_nil] at h1
      rw [Assignment.extendPbWords, h1]
      simp only [free_value (hf l List.mem_cons_self)]
      rw [if_neg (by simp)]
      exact ih ws (a.assignLit l) (by simpa using hl) (fun p hp => hz p (by simp [hp])) (hf.step hd) hd.tail

theorem chomp_id {l : Text} (h : '\n' ∉ l) : chomp l = l := by
  unfold chomp
  have : '\n' ∉ l.reverse := fun h' => h (List.mem_reverse.mp h')
  split
  · rename_i r e; rw [e] at this; exact absurd List.mem_cons_self this
  · rename_i r _ e; rw [e] at this; exact absurd List.mem_cons_self this
  · rfl

theorem lines_single {l : Text} (h : '\n' ∉ l) (hn : l ≠ []) : lines l = [l] := by
  rw [lines, readLines_last h hn, List.map_singleton, chomp_id h]

theorem extendFromVline_line {a a' : Assignment} {t : Text} {f : VLineFormat} (hn : '\n' ∉ 'v' :: t)
    (hf : vLineFormat ('v' :: t) = some f) (he : a.extendLine t f = .ok a') : a.extendFromVline ('v' :: t) = .ok a' := by
  rw [Assignment.extendFromVline, if_neg (by simp), hf, lines_single hn (by simp)]
  simp only [Assignment.extendLines, he]
  simp

theorem trim_space (t : Text) : trim (' ' :: t) = trim t := rfl

theorem splitWs_space (t : Text) : splitWs (' ' :: t) = splitWs t := rfl

theorem notX_showInt (z : Int) : 'x' ∉ showInt z := by
  intro h
  unfold showInt at h
  split at h
  · cases h with
    | tail _ h => exact absurd (isDigit_showNat _ _ h) (by decide)
  · exact absurd (isDigit_showNat _ _ h) (by decide)

theorem vLineFormat_noX {t : Text} (h : 'x' ∉ t) : vLineFormat ('v' :: ' ' :: t) =
    if ' ' ∉ trim t ∧ trim t ≠ ['0'] ∧ (trim t).all isBit = true then some .maxSatEval else some .satComp := by
  have hx : ¬ 'x' ∈ 'v' :: ' ' :: t := by
    intro h'
    cases h' with
    | tail _ h' => cases h' with
      | tail _ h' => exact h h'
  unfold vLineFormat
  rw [if_neg hx]
  simp only [trim_space]
  rw [if_neg (by decide)]
  rfl

/-- A value line listing literals makes these literals true. -/
theorem ListsLits.extend {ls : List Lit} {t : Text} (h : ListsLits ls t) (hn : '\n' ∉ t) {a : Assignment} (hf : Free a ls)
    (hd : Distinct ls) : a.extendFromVline t = .ok (ls.foldl Assignment.assignLit a) := by
  cases h with
  | @satComp zs _ t hw hr he hb =>
    have hx : 'x' ∉ t := by
      intro h
      rcases hw.mem _ h with h | ⟨x, hx, h⟩
      · exact absurd h (by decide)
      · obtain ⟨z, _, e⟩ := List.mem_map.mp hx
        subst e
        exact notX_showInt z h
    have hfmt := vLineFormat_noX hx
    have hall := extendSatWords_ok zs ls a hr he hf hd
    by_cases hc : ' ' ∉ trim t ∧ trim t ≠ ['0'] ∧ (trim t).all isBit = true
    · rw [if_pos hc] at hfmt
      refine extendFromVline_line hn hfmt ?_
      have hsp := hw.split
      rcases bits_words hc.2.2 with ⟨h1, h2⟩ | h1
      · rw [hsp, List.map_eq_nil_iff] at h1
        subst h1
        have hls : ls = [] := by
          cases ls with
          | nil => rfl
          | cons l ls => cases he
        subst hls
        show a.extendBits (trim (' ' :: t)) = _
        rw [trim_space, h2]
        rfl
      · exfalso
        rw [hsp] at h1
        cases zs with
        | nil => cases h1
        | cons z zs =>
          cases zs with
          | cons _ _ => simp at h1
          | nil =>
          simp only [List.map_cons, List.map_nil, List.cons.injEq, and_true] at h1
          by_cases hz : z = 0
          · subst hz
            exact hc.2.1 h1.symm
          · obtain ⟨c, hcm, hc0, hc1⟩ := hb rfl z (by simp) hz
            rw [h1] at hcm
            have := List.all_eq_true.mp hc.2.2 c hcm
            simp only [isBit, Bool.or_eq_true, beq_iff_eq] at this
            exact this.elim hc1 hc0
    · rw [if_neg hc] at hfmt
      refine extendFromVline_line hn hfmt ?_
      show a.extendSatWords (splitWs (' ' :: t)) = _
      rw [splitWs_space, hw.split]
      exact hall
  | @pbComp _ ws t hw hl hz =>
    have hall := extendPbWords_ok ls ws a hl hz hf hd
    cases ls with
    | nil =>
      have hws : ws = [] := List.length_eq_zero_iff.mp hl
      subst hws
      have hsp := hw.split
      have hx : 'x' ∉ t := by
        intro h
        rcases hw.mem _ h with h | ⟨x, hx, _⟩
        · exact absurd h (by decide)
        · cases hx
      have hfmt := vLineFormat_noX hx
      have hwhite : White t := by
        intro c hc
        rcases hw.mem c hc with h | ⟨x, hx, _⟩
        · exact h
        · cases hx
      have htr : trim t = [] := by
        have h1 : trimStart t = [] := by
          have := trimStart_append (s := []) hwhite
          rw [List.append_nil] at this
          exact this
        rw [trim, h1]; rfl
      rw [htr, if_pos ⟨by simp, by simp, rfl⟩] at hfmt
      refine extendFromVline_line hn hfmt ?_
      show a.extendBits (trim (' ' :: t)) = _
      rw [trim_space, htr]
      rfl
    | cons l ls =>
      match ws, hw, hl, hz, hall with
      | w :: ws, hw, hl, hz, hall =>
        have hlt := hz (l, w) (by simp)
        have hx : 'x' ∈ 'v' :: ' ' :: t := by
          refine List.mem_cons_of_mem _ (List.mem_cons_of_mem _ (hw.mem' w (by simp) 'x' ?_))
          have hlt' : OpbSpec.LitText 1 l w := hlt
          cases hlt' <;> simp
        have hfmt : vLineFormat ('v' :: ' ' :: t) = some .pbComp := by
          unfold vLineFormat
          rw [if_pos hx]
        refine extendFromVline_line hn hfmt ?_
        show a.extendPbWords (splitWs (' ' :: t)) = _
        rw [splitWs_space, hw.split]
        exact hall

/-! ### MaxSAT Evaluation lines -/

/-- The value of a variable given by a bit. -/
def bitVal (b : Bool) : TernaryVal := if b then .true else .false

def bitChar (b : Bool) : Char := if b then '1' else '0'

theorem extendBits_ok (bs : List Bool) (a : Assignment) :
    a.extendBits (bs.map bitChar) = .ok ⟨a.vals ++ bs.map bitVal⟩ := by
  induction bs generalizing a with
  | nil => simp [Assignment.extendBits]
  | cons b bs ih =>
    cases b
    · have : bitChar false = '0' := rfl
      rw [List.map_cons, this, Assignment.extendBits, if_pos rfl, ih]
      simp [bitVal]
    · have : bitChar true = '1' := rfl
      rw [List.map_cons, this, Assignment.extendBits, if_neg (by decide), if_pos rfl, ih]
      simp [bitVal]

theorem trimStart_noWs {t : Text} (h : ∀ c ∈ t, isWs c = false) : trimStart t = t := by
  cases t with
  | nil => rfl
  | cons c t => simp [trimStart, List.dropWhile_cons, h c List.mem_cons_self]

theorem trim_of {w x w' : Text} (hw : White w) (hx : ∀ c ∈ x, isWs c = false) (hw' : White w') : trim (w ++ (x ++ w')) = x := by
  have hw'' : White w'.reverse := fun c hc => hw' c (List.mem_reverse.mp hc)
  have hx' : ∀ c ∈ x.reverse, isWs c = false := fun c hc => hx c (List.mem_reverse.mp hc)
  rw [trim, trimStart_append hw]
  cases x with
  | nil =>
    have h1 : trimStart w' = [] := by
      have := trimStart_append (s := []) hw'
      rw [List.append_nil] at this
      exact this
    rw [List.nil_append, h1]
    rfl
  | cons c x =>
    have h1 : trimStart (c :: x ++ w') = c :: x ++ w' := by
      simp [trimStart, List.dropWhile_cons, hx c List.mem_cons_self]
    rw [h1]
    show (trimStart (c :: x ++ w').reverse).reverse = c :: x
    rw [List.reverse_append, trimStart_append hw'', trimStart_noWs hx', List.reverse_reverse]

theorem BitLine.extend {bs : List Bool} {l : Text} (h : BitLine bs l) (hn : '\n' ∉ l) (a : Assignment) :
    a.extendFromVline l = .ok ⟨a.vals ++ bs.map bitVal⟩ := by
  obtain ⟨h0, w, w', hw, hw', e⟩ := h
  subst e
  have hb : (bs.map fun b => if b then '1' else '0') = bs.map bitChar := rfl
  rw [hb] at hn ⊢
  have hbit : ∀ c ∈ bs.map bitChar, c = '1' ∨ c = '0' := by
    intro c hc
    obtain ⟨b, _, e⟩ := List.mem_map.mp hc
    subst e
    cases b
    · exact Or.inr rfl
    · exact Or.inl rfl
  have hws : ∀ c ∈ bs.map bitChar, isWs c = false := by
    intro c hc
    rcases hbit c hc with e | e <;> subst e <;> decide
  have hx : 'x' ∉ w ++ (bs.map bitChar ++ w') := by
    intro h
    rcases List.mem_append.mp h with h | h
    · exact absurd (hw _ h) (by decide)
    rcases List.mem_append.mp h with h | h
    · exact absurd (hbit _ h) (by decide)
    · exact absurd (hw' _ h) (by decide)
  have hfmt := vLineFormat_noX hx
  have ht := trim_of hw hws hw'
  have hall : (bs.map bitChar).all isBit = true := by
    refine List.all_eq_true.mpr fun c hc => ?_
    rcases hbit c hc with e | e <;> subst e <;> decide
  have hne : bs.map bitChar ≠ ['0'] := by
    intro h
    apply h0
    match bs, h with
    | [false], _ => rfl
    | [true], h => exact absurd h (by decide)
    | _ :: _ :: _, h => simp at h
  rw [ht, if_pos ⟨fun h => absurd (hws _ h) (by decide), hne, hall⟩] at hfmt
  refine extendFromVline_line hn hfmt ?_
  show a.extendBits (trim (' ' :: (w ++ (bs.map bitChar ++ w')))) = _
  rw [trim_space, ht]
  exact extendBits_ok bs a

/-! ### Whole outputs -/

theorem says_not_decisive {l : Text} (h : SaysSat l) : ¬ Decisive l := fun h' => h'.2 h

theorem value_not_status {l : Text} (h : ValueLine l) : ¬ StatusLine l := fun h' => status_not_value h' h

theorem SatOutput.collects {ls : List Text} {lits : List Lit} (h : SatOutput ls lits) :
    (∀ l ∈ ls, ¬ Decisive l) ∧ ∀ a, Free a lits → Distinct lits → Collects a ls (lits.foldl Assignment.assignLit a) := by
  induction h with
  | nil => exact ⟨(fun l hl => nomatch hl), fun a _ _ => .nil⟩
  | status hs _ ih =>
    refine ⟨?_, fun a hf hd => .other (status_not_value hs.status) (ih.2 a hf hd)⟩
    intro l hl
    cases hl with
    | head => exact says_not_decisive hs
    | tail _ hl => exact ih.1 l hl
  | other hs hv _ ih =>
    refine ⟨?_, fun a hf hd => .other hv (ih.2 a hf hd)⟩
    intro l hl
    cases hl with
    | head => exact fun h => hs h.1
    | tail _ hl => exact ih.1 l hl
  | @value l lits ls lits' hl hn _ ih =>
    have hv : ValueLine l := by cases hl <;> exact ⟨_, rfl⟩
    refine ⟨?_, fun a hf hd => ?_⟩
    · intro l hl
      cases hl with
      | head => exact fun h => value_not_status hv h.1
      | tail _ hl => exact ih.1 l hl
    · have hd1 : Distinct lits := hd.sublist (List.sublist_append_left _ _)
      have hd2 : Distinct lits' := hd.sublist (List.sublist_append_right _ _)
      rw [List.foldl_append]
      refine .value hv (hl.extend hn (fun l hl => hf l (List.mem_append_left _ hl)) hd1) (ih.2 _ ?_ hd2)
      have hcross := (List.pairwise_append.mp hd).2.2
      intro l' hl'
      have h0 := hf l' (List.mem_append_right _ hl')
      have hcl : ∀ x ∈ lits, x.var ≠ l'.var := fun x hx => hcross x hx l' hl'
      clear hd hd1 hl hf hcross
      induction lits generalizing a with
      | nil => exact h0
      | cons x lits ih2 =>
        refine ih2 _ ?_ fun y hy => hcl y (List.mem_cons_of_mem _ hy)
        rw [Assignment.varValue_assignLit, if_neg (fun e => hcl x List.mem_cons_self e.symm)]
        exact h0

theorem BitOutput.collects {ls : List Text} {bs : List Bool} (h : BitOutput ls bs) :
    (∀ l ∈ ls, ¬ Decisive l) ∧ ∀ a : Assignment, Collects a ls ⟨a.vals ++ bs.map bitVal⟩ := by
  induction h with
  | nil => exact ⟨(fun l hl => nomatch hl), fun a => by simpa using Collects.nil⟩
  | status hs _ ih =>
    refine ⟨?_, fun a => .other (status_not_value hs.status) (ih.2 a)⟩
    intro l hl
    cases hl with
    | head => exact says_not_decisive hs
    | tail _ hl => exact ih.1 l hl
  | other hs hv _ ih =>
    refine ⟨?_, fun a => .other hv (ih.2 a)⟩
    intro l hl
    cases hl with
    | head => exact fun h => hs h.1
    | tail _ hl => exact ih.1 l hl
  | @value l bs ls bs' hl hn _ ih =>
    have hv : ValueLine l := by obtain ⟨_, _, _, _, _, e⟩ := hl; exact ⟨_, e⟩
    refine ⟨?_, fun a => ?_⟩
    · intro l hl
      cases hl with
      | head => exact fun h => value_not_status hv h.1
      | tail _ hl => exact ih.1 l hl
    · refine .value hv (hl.extend hn a) ?_
      have := ih.2 ⟨a.vals ++ bs.map bitVal⟩
      rw [List.map_append, ← List.append_assoc]
      exact this

/-! ### The reader -/

theorem parse_quiet {t : Text} {a : Assignment} (hd : ∀ l ∈ lines t, ¬ Decisive l) (hc : Collects Assignment.empty (lines t) a) :
    ((¬ ∃ l ∈ lines t, SaysSat l) → parseSatSolverOutput t = .err .noSLine) ∧
    ((∃ l ∈ lines t, SaysSat l) → (¬ ∃ l ∈ lines t, ValueLine l) → parseSatSolverOutput t = .err .noVLine) ∧
    ((∃ l ∈ lines t, SaysSat l) → (∃ l ∈ lines t, ValueLine l) → parseSatSolverOutput t = .ok (.sat a)) := by
  obtain ⟨b', sol', e, h1, h2, h3⟩ := loop_quiet hd hc [] false none rfl
  rw [List.append_nil] at e
  unfold parseSatSolverOutput
  rw [e]
  simp only [Bool.false_eq_true, false_or, Option.isSome_none] at h2 h3
  refine ⟨fun h => ?_, fun hs h => ?_, fun hs hv => ?_⟩
  · have : b' = false := by cases b' with | false => rfl | true => exact absurd (h2.mp rfl) h
    unfold solverLoop
    rw [if_pos this]
  · unfold solverLoop
    rw [if_neg (by rw [h2.mpr hs]; simp)]
    cases sol' with
    | none => rfl
    | some x => exact absurd (h3.mp rfl) h
  · unfold solverLoop
    rw [if_neg (by rw [h2.mpr hs]; simp)]
    have := h3.mpr hv
    cases sol' with
    | none => cases this
    | some x =>
      have hx : x = a := h1
      rw [hx]

/-- What a line after quiet lines does. -/
theorem parse_stop {t : Text} {pre post : List Text} {l : Text} {a : Assignment} (he : lines t = pre ++ l :: post)
    (hd : ∀ l ∈ pre, ¬ Decisive l) (hc : Collects Assignment.empty pre a) :
    (SaysUnsat l → parseSatSolverOutput t = .ok .unsat) ∧ (SaysUnknown l → parseSatSolverOutput t = .ok .unknown) ∧
    (Malformed l → parseSatSolverOutput t = .err .invalidSLine) ∧
    (∀ e, ValueLine l → a.extendFromVline l = .err e → parseSatSolverOutput t = .err (.invalidVLine e)) ∧
    (ValueLine l → a.extendFromVline l = .panic → parseSatSolverOutput t = .panic) := by
  obtain ⟨b', sol', e, h1, h2, h3⟩ := loop_quiet hd hc (l :: post) false none rfl
  unfold parseSatSolverOutput
  rw [he, e]
  refine ⟨fun h => ?_, fun h => ?_, fun h => ?_, fun e hv h => ?_, fun hv h => ?_⟩
  · rcases sStep_cases b' l with ⟨_, _, _, h4⟩ | ⟨_, _, h5, _⟩ | ⟨_, h5, _, _⟩ | ⟨h5, _⟩ | ⟨h5, _⟩
    · rw [solverLoop, h4]
    · exact absurd h h5
    · exact absurd h h5
    · exact absurd h h5.2.1
    · exact absurd h.status h5
  · have hst : StatusLine l := by rcases h with h | h <;> exact h.status
    rcases sStep_cases b' l with ⟨_, _, h5, _⟩ | ⟨_, _, _, h4⟩ | ⟨_, _, h5, _⟩ | ⟨h5, _⟩ | ⟨h5, _⟩
    · exact absurd h h5
    · rw [solverLoop, h4]
    · exact absurd h h5
    · exact absurd h h5.2.2.2
    · exact absurd hst h5
  · rcases sStep_cases b' l with ⟨h5, _, _, _⟩ | ⟨h5, _, _, _⟩ | ⟨h5, _, _, _⟩ | ⟨_, h4⟩ | ⟨h5, _⟩
    · exact absurd h5 h.2.1
    · exact absurd h5 h.2.2.2
    · exact absurd h5 h.2.2.1
    · rw [solverLoop, h4]
    · exact absurd h.1 h5
  · rw [solverLoop, sStep, if_neg (fun h => value_not_status hv (status_iff.mp h))]
    simp only [vStep_value hv, h1, h]
  · rw [solverLoop, sStep, if_neg (fun h => value_not_status hv (status_iff.mp h))]
    simp only [vStep_value hv, h1, h]

theorem decisive_cases {l : Text} (h : Decisive l) : SaysUnsat l ∨ SaysUnknown l ∨ Malformed l := by
  by_cases h1 : SaysUnsat l
  · exact Or.inl h1
  by_cases h2 : SaysUnknown l
  · exact Or.inr (Or.inl h2)
  exact Or.inr (Or.inr ⟨h.1, h1, h.2, h2⟩)

/-- All outcomes of the reader. -/
theorem parse_cases (t : Text) :
    (∃ a, (∀ l ∈ lines t, ¬ Decisive l) ∧ Collects Assignment.empty (lines t) a ∧ (∃ l ∈ lines t, SaysSat l) ∧
      (∃ l ∈ lines t, ValueLine l) ∧ parseSatSolverOutput t = .ok (.sat a)) ∨
    (Quiet (lines t) ∧ (¬ ∃ l ∈ lines t, SaysSat l) ∧ parseSatSolverOutput t = .err .noSLine) ∨
    (Quiet (lines t) ∧ (∃ l ∈ lines t, SaysSat l) ∧ (¬ ∃ l ∈ lines t, ValueLine l) ∧
      parseSatSolverOutput t = .err .noVLine) ∨
    ∃ pre l post a, lines t = pre ++ l :: post ∧ (∀ l ∈ pre, ¬ Decisive l) ∧ Collects Assignment.empty pre a ∧
      (SaysUnsat l ∧ parseSatSolverOutput t = .ok .unsat ∨ SaysUnknown l ∧ parseSatSolverOutput t = .ok .unknown ∨
       Malformed l ∧ parseSatSolverOutput t = .err .invalidSLine ∨
       ValueLine l ∧ (∃ e, a.extendFromVline l = .err e ∧ parseSatSolverOutput t = .err (.invalidVLine e)) ∨
       ValueLine l ∧ a.extendFromVline l = .panic ∧ parseSatSolverOutput t = .panic) := by
  rcases split_lines (lines t) Assignment.empty with ⟨h1, a, h2⟩ | ⟨pre, l, post, a, e, h1, h2, h3⟩
  · obtain ⟨p1, p2, p3⟩ := parse_quiet h1 h2
    by_cases hs : ∃ l ∈ lines t, SaysSat l
    · by_cases hv : ∃ l ∈ lines t, ValueLine l
      · exact Or.inl ⟨a, h1, h2, hs, hv, p3 hs hv⟩
      · exact Or.inr (Or.inr (Or.inl ⟨⟨h1, a, h2⟩, hs, hv, p2 hs hv⟩))
    · exact Or.inr (Or.inl ⟨⟨h1, a, h2⟩, hs, p1 hs⟩)
  · obtain ⟨p1, p2, p3, p4, p5⟩ := parse_stop e h1 h2
    refine Or.inr (Or.inr (Or.inr ⟨pre, l, post, a, e, h1, h2, ?_⟩))
    rcases h3 with h3 | ⟨hv, h3⟩
    · rcases decisive_cases h3 with h | h | h
      · exact Or.inl ⟨h, p1 h⟩
      · exact Or.inr (Or.inl ⟨h, p2 h⟩)
      · exact Or.inr (Or.inr (Or.inl ⟨h, p3 h⟩))
    · cases hx : a.extendFromVline l with
      | ok a1 => exact absurd hx (h3 a1)
      | err e => exact Or.inr (Or.inr (Or.inr (Or.inl ⟨hv, e, rfl, p4 e hv hx⟩)))
      | panic => exact Or.inr (Or.inr (Or.inr (Or.inr ⟨hv, rfl, p5 hv hx⟩)))

end RustSat.OutputSpec
