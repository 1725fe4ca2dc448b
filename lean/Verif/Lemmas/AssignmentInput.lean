import Verif.Lemmas.ProblemInput
import Mathlib.Tactic.Ring
/-
Lemmas for the parser of assignment problems.
-/
namespace RustSat
namespace Problems
open Text P

/-! ### The line at the head of a text -/

/-- The first line of a text, with its end. -/
def lineOf : Text → Text
  | [] => []
  | c :: s => if c = '\n' then ['\n'] else c :: lineOf s

/-- The text after the first line. -/
def afterLine : Text → Text
  | [] => []
  | c :: s => if c = '\n' then s else afterLine s

theorem lineOf_append {w : Text} (h : '\n' ∉ w) (s : Text) : lineOf (w ++ s) = w ++ lineOf s ∧ afterLine (w ++ s) = afterLine s := by
  induction w with
  | nil => exact ⟨rfl, rfl⟩
  | cons c w ih =>
    have hc : c ≠ '\n' := fun e => h (e ▸ List.mem_cons_self)
    have ih := ih fun hm => h (List.mem_cons_of_mem _ hm)
    constructor
    · rw [List.cons_append, lineOf, if_neg hc, ih.1]
      rfl
    · rw [List.cons_append, afterLine, if_neg hc, ih.2]

theorem lineOf_cons {c : Char} (h : c ≠ '\n') (s : Text) : lineOf (c :: s) = c :: lineOf s := by
  rw [lineOf, if_neg h]

theorem afterLine_cons {c : Char} (h : c ≠ '\n') (s : Text) : afterLine (c :: s) = afterLine s := by
  rw [afterLine, if_neg h]

theorem lineOf_newline {w : Text} (h : '\n' ∉ w) (s : Text) : lineOf (w ++ '\n' :: s) = w ++ ['\n'] ∧ afterLine (w ++ '\n' :: s) = s := by
  rw [(lineOf_append h _).1, (lineOf_append h _).2]
  exact ⟨rfl, rfl⟩

theorem readLines_cons (s : Text) (h : s ≠ []) : readLines s = lineOf s :: readLines (afterLine s) := by
  induction s with
  | nil => exact absurd rfl h
  | cons c s ih =>
    by_cases hc : c = '\n'
    · rw [readLines, if_pos hc, lineOf, if_pos hc, afterLine, if_pos hc]
    · rw [readLines, if_neg hc, lineOf, if_neg hc, afterLine, if_neg hc]
      cases s with
      | nil => rfl
      | cons d s => rw [ih (List.cons_ne_nil _ _)]

/-! ### Running the loops -/

/-- The rest of the run after one turn. -/
def apFinish (n nObjs f1 f2 : Nat) (T : ApTurn) (ls : List Text) : SearchResult (Option ApState) :=
  match T with
  | .next st remain =>
    match apLine n nObjs f1 st remain with
    | .done (some st) => apLines n nObjs f2 st ls
    | .done none => .done none
    | .panic => .panic
    | .running => .running
  | .stop st => apLines n nObjs f2 st ls
  | .err => .done none
  | .panic => .panic

/-- With enough turns this is the result. -/
def Goes (n nObjs : Nat) (T : ApTurn) (ls : List Text) (r : SearchResult (Option ApState)) : Prop :=
  ∃ F, ∀ f1 f2, F ≤ f1 → F ≤ f2 → apFinish n nObjs f1 f2 T ls = r

variable {n nObjs : Nat} {st : ApState} {ls : List Text} {r : SearchResult (Option ApState)}

theorem goes_next {remain : Text} (h : Goes n nObjs (apTurn n nObjs st remain) ls r) : Goes n nObjs (.next st remain) ls r := by
  obtain ⟨F, h⟩ := h
  refine ⟨F + 1, fun f1 f2 h1 h2 => ?_⟩
  cases f1 with
  | zero => omega
  | succ f1 =>
    have := h f1 f2 (by omega) (by omega)
    rw [← this, apFinish, apLine]
    cases apTurn n nObjs st remain <;> rfl

theorem goes_line {l : Text} (h : Goes n nObjs (.next st (trimStart l)) ls r) : Goes n nObjs (.stop st) (l :: ls) r := by
  obtain ⟨F, h⟩ := h
  refine ⟨F, fun f1 f2 h1 h2 => ?_⟩
  rw [← h f2 f2 h2 h2, apFinish, apFinish, apLines]
  cases apLine n nObjs f2 st l.trimStart with
  | done o => cases o <;> rfl
  | panic => rfl
  | running => rfl

theorem goes_end : Goes n nObjs (.stop st) [] (.done (some st)) := ⟨0, fun _ _ _ _ => rfl⟩

/-- A part of a turn at the start of a text. -/
def AtText (n nObjs : Nat) (S : ApState → Text → ApTurn) (st : ApState) (x : Text) (r : SearchResult (Option ApState)) : Prop :=
  Goes n nObjs (S st (lineOf x)) (readLines (afterLine x)) r

/-- Text that ends the work on a line. -/
theorem apStop {t : Text} (h : (∀ c ∈ t, isWs c = true) ∨ ∃ s, t = '#' :: s) :
    apRow n st t = .stop st ∧ apComma n nObjs st t = .stop st ∧ apClose n nObjs st t = .stop st ∧ apTurn n nObjs st t = .stop st := by
  have hno : ∀ c, isWs c = false → c ≠ '#' → startsWith [c] t = false := by
    intro c hc h'
    obtain h | ⟨s, rfl⟩ := h
    · cases t with
      | nil => rfl
      | cons d t =>
        have hd := h d List.mem_cons_self
        have : c ≠ d := fun e => by rw [e, hd] at hc; cases hc
        simp [startsWith, List.isPrefixOf, this]
    · simp [startsWith, List.isPrefixOf, h']
  have h1 : apRow n st t = .stop st := by
    rw [apRow, if_pos]
    obtain h | ⟨s, rfl⟩ := h
    · rw [trim_ws h]
      simp
    · simp [startsWith]
  have h2 : apComma n nObjs st t = .stop st := by
    rw [apComma, hno ',' (by decide) (by decide)]
    exact h1
  have h3 : apClose n nObjs st t = .stop st := by
    rw [apClose, hno ']' (by decide) (by decide)]
    exact h2
  refine ⟨h1, h2, h3, ?_⟩
  rw [apTurn, hno '[' (by decide) (by decide)]
  exact h3

/-- The parts of a turn. -/
def IsStage (n nObjs : Nat) (S : ApState → Text → ApTurn) : Prop :=
  S = apRow n ∨ S = apComma n nObjs ∨ S = apClose n nObjs ∨ S = apTurn n nObjs

theorem stage_stop {S : ApState → Text → ApTurn} (hS : IsStage n nObjs S) {t : Text}
    (h : (∀ c ∈ t, isWs c = true) ∨ ∃ s, t = '#' :: s) : S st t = .stop st := by
  have := apStop (n := n) (nObjs := nObjs) (st := st) h
  obtain rfl | rfl | rfl | rfl := hS
  · exact this.1
  · exact this.2.1
  · exact this.2.2.1
  · exact this.2.2.2

theorem stage_trailing {S : ApState → Text → ApTurn} (hS : IsStage n nObjs S) {t : Text} (h : Trailing t) :
    '\n' ∉ t ∧ S st t = .stop st ∧ S st (t ++ ['\n']) = .stop st := by
  obtain h | ⟨s, rfl, hs⟩ := h
  · refine ⟨h.newline, stage_stop hS (.inl h.ws), stage_stop hS (.inl fun c hc => ?_)⟩
    obtain hc | hc := List.mem_append.1 hc
    · exact h.ws c hc
    · rw [List.mem_singleton] at hc
      subst hc
      decide
  · refine ⟨?_, stage_stop hS (.inr ⟨s, rfl⟩), stage_stop hS (.inr ⟨s ++ ['\n'], rfl⟩)⟩
    simp only [List.mem_cons, not_or]
    exact ⟨by decide, hs⟩

theorem apTurn_noContent {l : Text} (h : NoContent l) : apTurn n nObjs st (trimStart (l ++ ['\n'])) = .stop st := by
  obtain h | ⟨w, t, rfl, hw, _⟩ := h
  · have e : trimStart (l ++ ['\n']) = [] := by
      rw [trimStart_append h.ws]
      rfl
    rw [e]
    exact (apStop (.inl fun c hc => absurd hc List.not_mem_nil)).2.2.2
  · rw [List.append_assoc, trimStart_append hw.ws, List.cons_append, trimStart_head (by decide)]
    exact (apStop (.inr ⟨_, rfl⟩)).2.2.2

theorem goes_noContent {l : Text} (h : NoContent l) (hg : Goes n nObjs (.stop st) ls r) : Goes n nObjs (.stop st) ((l ++ ['\n']) :: ls) r := by
  refine goes_line (goes_next ?_)
  rw [apTurn_noContent h]
  exact hg

/-- Text that starts with a bracket or a comma. -/
def Starts (x : Text) : Prop := ∃ c s, x = c :: s ∧ isWs c = false

theorem goes_lineStart {b x : Text} (hb : LineStart b) (hx : Starts x) (h : AtText n nObjs (apTurn n nObjs) st x r) :
    Goes n nObjs (.stop st) (readLines (b ++ x)) r := by
  obtain ⟨c, s, rfl, hc⟩ := hx
  have hcn : c ≠ '\n' := fun e => by subst e; revert hc; decide
  induction hb with
  | pad p hp =>
    rw [readLines_cons _ (by simp), (lineOf_append hp.newline _).1, (lineOf_append hp.newline _).2]
    refine goes_line ?_
    rw [trimStart_append hp.ws, lineOf_cons hcn, trimStart_head hc]
    refine goes_next ?_
    have := h
    rw [AtText, lineOf_cons hcn] at this
    exact this
  | line l b hl hb ih =>
    rw [List.append_assoc, List.cons_append, readLines_line hl.newline]
    exact goes_noContent hl ih

/-- A break before a text. -/
theorem at_break {S : ApState → Text → ApTurn} (hS : IsStage n nObjs S) {b x : Text} (hb : Break b) (hx : Starts x)
    (h0 : AtText n nObjs (apTurn n nObjs) st x r → AtText n nObjs S st x r)
    (h : AtText n nObjs (apTurn n nObjs) st x r) : AtText n nObjs S st (b ++ x) r := by
  cases hb with
  | none => exact h0 h
  | line t b ht hb =>
    have hs := stage_trailing (st := st) hS ht
    rw [AtText, List.append_assoc, List.cons_append, (lineOf_newline hs.1 _).1, (lineOf_newline hs.1 _).2, hs.2.2]
    exact goes_lineStart hb hx h

/-- The end of the file. -/
theorem at_fileEnd {S : ApState → Text → ApTurn} (hS : IsStage n nObjs S) {e : Text} (he : FileEnd e) :
    AtText n nObjs S st e (.done (some st)) := by
  obtain ht | ⟨s, L, rfl, ht, hL⟩ := he
  · have hs := stage_trailing (st := st) hS ht
    have h1 := (lineOf_append hs.1 []).1
    have h2 := (lineOf_append hs.1 []).2
    rw [List.append_nil] at h1 h2
    rw [AtText, h1, h2, lineOf, List.append_nil, hs.2.1]
    exact goes_end
  · have hs := stage_trailing (st := st) hS ht
    rw [AtText, (lineOf_newline hs.1 _).1, (lineOf_newline hs.1 _).2, hs.2.2]
    clear ht
    induction L with
    | nil => exact goes_end
    | cons l L ih =>
      have e : unlines (l :: L) = l ++ '\n' :: unlines L := by simp [unlines]
      rw [e, readLines_line (hL l List.mem_cons_self).newline]
      exact goes_noContent (hL l List.mem_cons_self) (ih fun l hl => hL l (List.mem_cons_of_mem _ hl))

/-! ### Brackets and commas -/

theorem startsWith_single (c d : Char) (s : Text) : startsWith [c] (d :: s) = (c == d) := by
  simp [startsWith, List.isPrefixOf]

theorem turn_skip {c : Char} {x : Text} {st : ApState} (hc : c ≠ '[' ∨ st.depth = 2) :
    apTurn n nObjs st (c :: x) = apClose n nObjs st (c :: x) := by
  rw [apTurn, if_neg]
  rw [startsWith_single]
  obtain hc | hc := hc
  · simp [Ne.symm hc]
  · simp [hc]

theorem close_skip {c : Char} {x : Text} {st : ApState} (hc : c ≠ ']') : apClose n nObjs st (c :: x) = apComma n nObjs st (c :: x) := by
  rw [apClose, if_neg]
  rw [startsWith_single]
  simp [Ne.symm hc]

theorem comma_skip {c : Char} {x : Text} {st : ApState} (hc : c ≠ ',') : apComma n nObjs st (c :: x) = apRow n st (c :: x) := by
  rw [apComma, if_neg]
  rw [startsWith_single]
  simp [Ne.symm hc]

/-- A bracket that opens a list of lists. -/
theorem at_open {x : Text} (hd : st.depth < 2) (h : AtText n nObjs (apClose n nObjs) { st with depth := st.depth + 1 } x r) :
    AtText n nObjs (apTurn n nObjs) st ('[' :: x) r := by
  rw [AtText, lineOf_cons (by decide), afterLine_cons (by decide), apTurn, startsWith_single, if_pos (by simp [hd])]
  exact h

/-- A bracket at the start of the text after an opening bracket. -/
theorem close_open {x : Text} {st : ApState} : apClose n nObjs st ('[' :: x) = apRow n st ('[' :: x) :=
  (close_skip (by decide)).trans (comma_skip (by decide))

theorem turn_open_row {x : Text} {st : ApState} (hd : st.depth = 2) : apTurn n nObjs st ('[' :: x) = apRow n st ('[' :: x) :=
  (turn_skip (.inr hd)).trans close_open

/-- The text is not empty and has no comment at its start. -/
theorem row_next {c : Char} {x : Text} {st : ApState} (hd : st.depth ≠ 2) (hc : c ≠ '#') (hw : isWs c = false) :
    apRow n st (c :: x) = .next st (c :: x) := by
  rw [apRow, if_neg, if_neg hd]
  rw [startsWith_single]
  simp only [Bool.or_eq_true, not_or, beq_iff_eq, List.isEmpty_iff]
  exact ⟨fun e => hc e.symm, trim_ne_nil List.mem_cons_self hw⟩

theorem at_row_next {c : Char} {x : Text} (hd : st.depth ≠ 2) (hc : c ≠ '#') (hw : isWs c = false)
    (h : AtText n nObjs (apTurn n nObjs) st (c :: x) r) : AtText n nObjs (apRow n) st (c :: x) r := by
  have hn : c ≠ '\n' := fun e => by subst e; revert hw; decide
  rw [AtText, lineOf_cons hn, row_next hd hc hw]
  refine goes_next ?_
  have := h
  rw [AtText, lineOf_cons hn] at this
  exact this

/-- A row. -/
theorem at_row {vs : List Nat} {t s : Text} {m : Nat} {costs : List Nat} (hd : st.depth = 2) (ht : ListText vs t) (hv : ∀ v ∈ vs, v ≤ usizeMax)
    (hf : foldCb (setCost n st.obj st.task) (0, st.costs) vs = .ok (m, costs))
    (h : AtText n nObjs (apTurn n nObjs) { st with costs := costs } s r) : AtText n nObjs (apRow n) st (t ++ s) r := by
  have hn := newline_listText ht
  obtain ⟨q, hq⟩ := ht.head
  rw [AtText, (lineOf_append hn _).1, (lineOf_append hn _).2]
  have e : apRow n st (t ++ lineOf s) = .next { st with costs := costs } (lineOf s) := by
    rw [apRow, if_neg, if_pos hd, listP_ok ht hv hf]
    rw [hq, List.cons_append, startsWith_single]
    simp only [Bool.or_eq_true, not_or, beq_iff_eq, List.isEmpty_iff]
    exact ⟨by decide, trim_ne_nil List.mem_cons_self (by decide)⟩
  rw [e]
  exact goes_next h

theorem foldCb_setCost_err {obj task : Nat} : ∀ (vs : List Nat) (a : Nat) (costs : List Nat), obj * n * n + task * n + n ≤ costs.length → a ≤ n →
    n < a + vs.length → foldCb (setCost n obj task) (a, costs) vs = .err () := by
  intro vs
  induction vs with
  | nil => intro a costs _ h1 h2; simp at h2; omega
  | cons v vs ih =>
    intro a costs hc h1 h2
    rw [foldCb, setCost]
    simp only
    by_cases ha : a ≥ n
    · rw [if_pos ha]
    · rw [if_neg ha, if_pos (by omega)]
      simp only
      exact ih (a + 1) _ (by rw [List.length_set]; exact hc) (by omega) (by rw [List.length_cons] at h2; omega)

/-- A row that is too long. -/
theorem at_row_long {vs : List Nat} {t s : Text} (hd : st.depth = 2) (ht : ListText vs t) (hv : ∀ v ∈ vs, v ≤ usizeMax) (hl : n < vs.length)
    (hc : st.obj * n * n + st.task * n + n ≤ st.costs.length) :
    ∃ r, (r = .done none ∨ r = .panic) ∧ AtText n nObjs (apRow n) st (t ++ s) r := by
  have hn := newline_listText ht
  obtain ⟨q, hq⟩ := ht.head
  have hno := listP_err ht hv (foldCb_setCost_err (obj := st.obj) (task := st.task) vs 0 st.costs hc (Nat.zero_le _) (by omega)) (lineOf s)
  have e : apRow n st (t ++ lineOf s) = .err ∨ apRow n st (t ++ lineOf s) = .panic := by
    rw [apRow, if_neg, if_pos hd]
    · cases hp : listP (setCost n st.obj st.task) (0, st.costs) (t ++ lineOf s) with
      | ok p r => exact absurd hp (hno p r)
      | panic => exact Or.inr rfl
      | _ => exact Or.inl rfl
    · rw [hq, List.cons_append, startsWith_single]
      simp only [Bool.or_eq_true, not_or, beq_iff_eq, List.isEmpty_iff]
      exact ⟨by decide, trim_ne_nil List.mem_cons_self (by decide)⟩
  rcases e with e | e
  · refine ⟨_, .inl rfl, ?_⟩
    rw [AtText, (lineOf_append hn _).1, (lineOf_append hn _).2, e]
    exact ⟨0, fun _ _ _ _ => rfl⟩
  · refine ⟨_, .inr rfl, ?_⟩
    rw [AtText, (lineOf_append hn _).1, (lineOf_append hn _).2, e]
    exact ⟨0, fun _ _ _ _ => rfl⟩

/-- A closing bracket. -/
theorem at_close {x : Text} {st' : ApState}
    (hst : st' = { st with depth := st.depth - 1, task := if st.depth - 1 = 1 then 0 else st.task })
    (h : AtText n nObjs (apComma n nObjs) st' x r) : AtText n nObjs (apTurn n nObjs) st (']' :: x) r := by
  subst hst
  rw [AtText, lineOf_cons (by decide), afterLine_cons (by decide), turn_skip (.inl (by decide)), apClose, startsWith_single, if_pos (by decide)]
  exact h

/-- A comma between rows. -/
theorem at_comma2 {x : Text} (hd : st.depth = 2) (ho : st.obj < nObjs) (h : AtText n nObjs (apRow n) { st with task := st.task + 1 } x r) :
    AtText n nObjs (apTurn n nObjs) st (',' :: x) r := by
  rw [AtText, lineOf_cons (by decide), afterLine_cons (by decide), turn_skip (.inl (by decide)), close_skip (by decide), apComma,
    startsWith_single, if_pos (by decide), if_neg (by rw [hd]; decide), if_pos hd, if_pos ho]
  exact h

/-- A comma between objectives. -/
theorem at_comma1 {x : Text} (hd : st.depth = 1) (ho : st.obj + 1 < nObjs) (h : AtText n nObjs (apRow n) { st with obj := st.obj + 1 } x r) :
    AtText n nObjs (apComma n nObjs) st (',' :: x) r ∧ AtText n nObjs (apTurn n nObjs) st (',' :: x) r := by
  have key : AtText n nObjs (apComma n nObjs) st (',' :: x) r := by
    rw [AtText, lineOf_cons (by decide), afterLine_cons (by decide), apComma, startsWith_single, if_pos (by decide), if_pos hd, if_pos ho]
    exact h
  refine ⟨key, ?_⟩
  rw [AtText, lineOf_cons (by decide)] at key ⊢
  rw [turn_skip (.inl (by decide)), close_skip (by decide)]
  exact key

/-! ### The costs -/

theorem foldCb_setCost {obj task : Nat} : ∀ (vs : List Nat) (a : Nat) (done todo : List Nat), done.length = obj * n * n + task * n + a →
    a + vs.length ≤ n → vs.length ≤ todo.length →
    foldCb (setCost n obj task) (a, done ++ todo) vs = .ok (a + vs.length, done ++ (vs ++ todo.drop vs.length)) := by
  intro vs
  induction vs with
  | nil => intro a done todo _ _ _; rfl
  | cons v vs ih =>
    intro a done todo hd ha ht
    cases todo with
    | nil => simp at ht
    | cons x todo =>
      rw [List.length_cons] at ha
      rw [List.length_cons, List.length_cons] at ht
      have e : setCost n obj task (a, done ++ x :: todo) v = .ok (a + 1, (done ++ [v]) ++ todo) := by
        rw [setCost]
        simp only
        rw [if_neg (by omega), if_pos (by rw [List.length_append, List.length_cons]; omega), ← hd,
          List.set_append_right _ _ (Nat.le_refl _), Nat.sub_self, List.set_cons_zero, List.append_assoc]
        rfl
      rw [foldCb, e]
      simp only
      rw [ih (a + 1) (done ++ [v]) todo (by rw [List.length_append, hd]; rfl) (by omega) (by omega)]
      simp [Nat.add_comm, Nat.add_left_comm]

/-- The rows of an objective. -/
theorem at_rows {rows : List (List Nat)} {x : Text} (hx : BlockRest ListText rows x)
    (hr : ∀ row ∈ rows, row.length = n ∧ ∀ v ∈ row, v ≤ usizeMax) :
    ∀ (st : ApState) (done todo : List Nat) (s : Text), st.depth = 2 → st.obj < nObjs → st.costs = done ++ todo →
      done.length = st.obj * n * n + st.task * n → rows.length * n ≤ todo.length →
      AtText n nObjs (apComma n nObjs) ⟨1, st.obj, 0, done ++ (rows.flatten ++ todo.drop (rows.length * n))⟩ s r →
      AtText n nObjs (apRow n) st (x ++ s) r := by
  induction hx with
  | last row t b ht hb =>
    intro st done todo s hd ho hc hl ht' h
    have h0 := hr row List.mem_cons_self
    have hf := foldCb_setCost (n := n) (obj := st.obj) (task := st.task) row 0 done todo hl (by omega) (by
      rw [List.length_singleton] at ht'; omega)
    rw [← hc] at hf
    rw [List.append_assoc, List.append_assoc]
    refine at_row hd ht h0.2 hf ?_
    refine at_break (.inr (.inr (.inr rfl))) hb ⟨']', s, rfl, by decide⟩ id ?_
    refine at_close (st' := ⟨1, st.obj, 0, done ++ (row ++ todo.drop n)⟩) ?_ ?_
    · rw [hd, h0.1]
      rfl
    · simpa using h
  | more row t b b' rows x ht hb hb' hx ih =>
    intro st done todo s hd ho hc hl ht' h
    have h0 := hr row List.mem_cons_self
    rw [List.length_cons, Nat.succ_mul] at ht'
    have hf := foldCb_setCost (n := n) (obj := st.obj) (task := st.task) row 0 done todo hl (by omega) (by omega)
    rw [← hc] at hf
    simp only [List.append_assoc, List.cons_append]
    refine at_row hd ht h0.2 hf ?_
    refine at_break (.inr (.inr (.inr rfl))) hb ⟨',', _, rfl, by decide⟩ id ?_
    refine at_comma2 hd ho ?_
    have key := ih (fun row hm => hr row (List.mem_cons_of_mem _ hm)) { st with task := st.task + 1, costs := done ++ (row ++ todo.drop row.length) }
      (done ++ row) (todo.drop n) s hd ho (by rw [h0.1, List.append_assoc]) (by
        rw [List.length_append, hl, h0.1, Nat.succ_mul, Nat.add_assoc]) (by rw [List.length_drop]; omega) (by
        rw [List.drop_drop]
        simpa [Nat.succ_mul, Nat.add_comm] using h)
    have hq : ∃ q, x = '[' :: q := by
      cases hx with
      | last row t b ht _ => obtain ⟨q, rfl⟩ := ht.head; exact ⟨_, rfl⟩
      | more row t b b' rows x ht _ _ _ => obtain ⟨q, rfl⟩ := ht.head; exact ⟨_, rfl⟩
    obtain ⟨q, rfl⟩ := hq
    have key' : AtText n nObjs (apTurn n nObjs) { st with task := st.task + 1, costs := done ++ (row ++ todo.drop row.length) } ('[' :: q ++ s) r := by
      rw [AtText, List.cons_append, lineOf_cons (by decide)] at key ⊢
      rw [turn_open_row (show ApState.depth { st with task := st.task + 1, costs := done ++ (row ++ todo.drop row.length) } = 2 from hd)]
      exact key
    exact at_break (.inl rfl) hb' ⟨'[', _, rfl, by decide⟩ (fun _ => key) key'

/-- A list of rows. -/
theorem at_block {rows : List (List Nat)} {x : Text} (hx : Block ListText rows x)
    (hr : ∀ row ∈ rows, row.length = n ∧ ∀ v ∈ row, v ≤ usizeMax)
    (st : ApState) (done todo : List Nat) (s : Text) (hd : st.depth = 1) (ht : st.task = 0) (ho : st.obj < nObjs) (hc : st.costs = done ++ todo)
    (hl : done.length = st.obj * n * n) (htodo : rows.length * n ≤ todo.length)
    (h : AtText n nObjs (apComma n nObjs) ⟨1, st.obj, 0, done ++ (rows.flatten ++ todo.drop (rows.length * n))⟩ s r) :
    AtText n nObjs (apTurn n nObjs) st (x ++ s) r := by
  obtain ⟨b, x, rfl, hb, hx⟩ := hx
  rw [List.cons_append, List.append_assoc]
  refine at_open (by rw [hd]; decide) ?_
  have key := at_rows (n := n) (nObjs := nObjs) (r := r) hx hr { st with depth := st.depth + 1 } done todo s (by simp [hd]) ho hc
    (by simp [ht, hl]) htodo h
  have hq : ∃ q, x = '[' :: q := by
    cases hx with
    | last row t b ht _ => obtain ⟨q, rfl⟩ := ht.head; exact ⟨_, rfl⟩
    | more row t b b' rows x ht _ _ _ => obtain ⟨q, rfl⟩ := ht.head; exact ⟨_, rfl⟩
  obtain ⟨q, rfl⟩ := hq
  refine at_break (.inr (.inr (.inl rfl))) hb ⟨'[', _, rfl, by decide⟩ (fun _ => ?_) ?_
  · rw [AtText, List.cons_append, lineOf_cons (by decide)] at key ⊢
    rw [close_open]
    exact key
  · rw [AtText, List.cons_append, lineOf_cons (by decide)] at key ⊢
    rw [turn_open_row (by simp [hd])]
    exact key

theorem Block.head {rows : List (List Nat)} {x : Text} (h : Block ListText rows x) : ∃ q, x = '[' :: q := by
  obtain ⟨b, x, rfl, _⟩ := h
  exact ⟨_, rfl⟩

/-- The objectives. -/
theorem at_blocks {blocks : List (List (List Nat))} {x : Text} (hx : BlockRest (Block ListText) blocks x)
    (hr : ∀ rows ∈ blocks, rows.length = n ∧ ∀ row ∈ rows, row.length = n ∧ ∀ v ∈ row, v ≤ usizeMax) :
    ∀ (st : ApState) (done todo : List Nat) (s : Text), st.depth = 1 → st.task = 0 → st.obj + blocks.length ≤ nObjs → st.costs = done ++ todo →
      done.length = st.obj * n * n → blocks.length * (n * n) ≤ todo.length →
      AtText n nObjs (apComma n nObjs) ⟨0, st.obj + blocks.length - 1, 0, done ++ (blocks.flatten.flatten ++ todo.drop (blocks.length * (n * n)))⟩ s r →
      AtText n nObjs (apTurn n nObjs) st (x ++ s) r := by
  induction hx with
  | last rows t b ht hb =>
    intro st done todo s hd h0 ho hc hl ht' h
    have hrow := hr rows List.mem_cons_self
    rw [List.length_singleton] at ho ht'
    rw [List.append_assoc, List.append_assoc]
    refine at_block ht hrow.2 st done todo _ hd h0 (by omega) hc hl (by rw [hrow.1]; omega) ?_
    have h2 : AtText n nObjs (apTurn n nObjs) ⟨1, st.obj, 0, done ++ (rows.flatten ++ todo.drop (rows.length * n))⟩ (']' :: s) r := by
      refine at_close rfl ?_
      rw [hrow.1]
      simpa using h
    refine at_break (.inr (.inl rfl)) hb ⟨']', s, rfl, by decide⟩ (fun h => ?_) h2
    have := at_row_next (c := ']') (x := s) (n := n) (show (1 : Int) ≠ 2 by decide) (by decide) (by decide) h
    rw [AtText, List.singleton_append, lineOf_cons (by decide)]
    rw [AtText, lineOf_cons (by decide)] at this
    rw [comma_skip (by decide)]
    exact this
  | more rows t b b' blocks x ht hb hb' hx ih =>
    intro st done todo s hd h0 ho hc hl ht' h
    have hrow := hr rows List.mem_cons_self
    rw [List.length_cons] at ho ht'
    rw [Nat.succ_mul] at ht'
    simp only [List.append_assoc, List.cons_append]
    refine at_block ht hrow.2 st done todo _ hd h0 (by omega) hc hl (by rw [hrow.1]; omega) ?_
    have hpos : 0 < blocks.length := by
      cases hx <;> simp
    have key := ih (fun rows hm => hr rows (List.mem_cons_of_mem _ hm)) ⟨1, st.obj + 1, 0, done ++ (rows.flatten ++ todo.drop (rows.length * n))⟩
      (done ++ rows.flatten) (todo.drop (n * n)) s rfl rfl (by simp only; omega) (by rw [hrow.1, List.append_assoc]) (by
        have : rows.flatten.length = n * n := by
          have hlen : ∀ (l : List (List Nat)), (∀ row ∈ l, row.length = n) → l.flatten.length = l.length * n := by
            intro l hl
            induction l with
            | nil => simp
            | cons y l ih' =>
              rw [List.flatten_cons, List.length_append, hl y List.mem_cons_self, ih' fun row hm => hl row (List.mem_cons_of_mem _ hm),
                List.length_cons, Nat.succ_mul, Nat.add_comm]
          rw [hlen rows fun row hm => (hrow.2 row hm).1, hrow.1]
        rw [List.length_append, hl, this]
        ring) (by rw [List.length_drop]; omega) (by
        rw [List.drop_drop]
        simp only [List.length_cons, Nat.succ_mul, List.flatten_cons, List.flatten_append, List.append_assoc] at h ⊢
        rw [show st.obj + 1 + blocks.length - 1 = st.obj + (blocks.length + 1) - 1 by omega, Nat.add_comm (n * n)]
        exact h)
    have hq : ∃ q, x = '[' :: q := by
      cases hx with
      | last row t b ht _ => obtain ⟨q, rfl⟩ := ht.head; exact ⟨_, rfl⟩
      | more row t b b' rows x ht _ _ _ => obtain ⟨q, rfl⟩ := ht.head; exact ⟨_, rfl⟩
    obtain ⟨q, rfl⟩ := hq
    have hrow' : AtText n nObjs (apRow n) ⟨1, st.obj + 1, 0, done ++ (rows.flatten ++ todo.drop (rows.length * n))⟩ (b' ++ ('[' :: q ++ s)) r :=
      at_break (.inl rfl) hb' ⟨'[', _, rfl, by decide⟩ (fun h => at_row_next (show (1 : Int) ≠ 2 by decide) (by decide) (by decide) h) key
    have hcomma := at_comma1 (st := ⟨1, st.obj, 0, done ++ (rows.flatten ++ todo.drop (rows.length * n))⟩) rfl (by simp only; omega) hrow'
    exact at_break (.inr (.inl rfl)) hb ⟨',', _, rfl, by decide⟩ (fun _ => hcomma.1) hcomma.2

/-- The whole list. -/
theorem at_all {blocks : List (List (List Nat))} {x e : Text} (hx : Block (Block ListText) blocks x) (he : FileEnd e)
    (hr : ∀ rows ∈ blocks, rows.length = n ∧ ∀ row ∈ rows, row.length = n ∧ ∀ v ∈ row, v ≤ usizeMax) (hn : blocks.length = nObjs) (todo : List Nat)
    (ht : nObjs * (n * n) ≤ todo.length) :
    AtText n nObjs (apTurn n nObjs) ⟨0, 0, 0, todo⟩ (x ++ e)
      (.done (some ⟨0, nObjs - 1, 0, blocks.flatten.flatten ++ todo.drop (nObjs * (n * n))⟩)) := by
  obtain ⟨b, x, rfl, hb, hx⟩ := hx
  rw [List.cons_append, List.append_assoc]
  refine at_open (show (0 : Int) < 2 by decide) ?_
  have key := at_blocks (n := n) (nObjs := nObjs) hx hr ⟨1, 0, 0, todo⟩ [] todo e rfl rfl (by simp only; omega) rfl (by simp) (by rw [hn]; exact ht)
    (at_fileEnd (.inr (.inl rfl)) he)
  rw [hn, Nat.zero_add, List.nil_append] at key
  have hq : ∃ q, x = '[' :: q := by
    cases hx with
    | last row t b ht _ => obtain ⟨q, rfl⟩ := ht.head; exact ⟨_, rfl⟩
    | more row t b b' rows x ht _ _ _ => obtain ⟨q, rfl⟩ := ht.head; exact ⟨_, rfl⟩
  obtain ⟨q, rfl⟩ := hq
  refine at_break (.inr (.inr (.inl rfl))) hb ⟨'[', _, rfl, by decide⟩ (fun h => ?_) key
  have := at_row_next (c := '[') (n := n) (show (1 : Int) ≠ 2 by decide) (by decide) (by decide) h
  rw [AtText, List.cons_append, lineOf_cons (by decide), close_open]
  rw [AtText, lineOf_cons (by decide)] at this
  exact this

end Problems
end RustSat
