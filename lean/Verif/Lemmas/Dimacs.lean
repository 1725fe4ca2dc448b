import Verif.Lemmas.Text
import Verif.Spec.Dimacs
import Verif.Lemmas.Lit

/-
The DIMACS parsers read the texts described in `Spec.Dimacs`, and the writers produce them.
-/

namespace RustSat.DimacsSpec
open Text P Dimacs

theorem Sep.space {s : Text} (h : Sep s) : ∀ c ∈ s, isSpace c = true := by
  intro c hc
  rcases h.2 c hc with e | e <;> subst e <;> decide

theorem Sep.single : Sep [' '] := ⟨by simp, fun c hc => by simp at hc; exact Or.inl hc⟩

theorem fromIpasir_number {l : Lit} (h : (l.var : Int) + 1 ≤ 2147483647) : Lit.fromIpasir (number l) = .ok l := by
  have hl : Lit.mk' l.var l.isNeg = l := Lit.mk'_var_isNeg l
  rw [Lit.fromIpasir, number]
  cases hn : l.isNeg with
  | true =>
    rw [hn] at hl
    rw [if_pos rfl, if_neg (by omega), Lit.newWithError]
    have e : (-((l.var : Int) + 1)).natAbs - 1 = l.var := by omega
    rw [e, if_neg (by show ¬ l.var > 2147483647; omega)]
    have : decide (-((l.var : Int) + 1) < 0) = true := by rw [decide_eq_true_iff]; omega
    rw [this, hl]
  | false =>
    rw [hn] at hl
    rw [if_neg Bool.false_ne_true, if_neg (by omega), Lit.newWithError]
    have e : ((l.var : Int) + 1).natAbs - 1 = l.var := by omega
    rw [e, if_neg (by show ¬ l.var > 2147483647; omega)]
    have : decide (((l.var : Int) + 1) < 0) = false := by rw [decide_eq_false_iff_not]; omega
    rw [this, hl]

theorem number_range {l : Lit} (h : (l.var : Int) + 1 ≤ 2147483647) : i32Min ≤ number l ∧ number l ≤ i32Max := by
  rw [number]
  have h1 : i32Min = -2147483648 := rfl
  have h2 : i32Max = 2147483647 := rfl
  split <;> omega

theorem lit_ok {l : Lit} {s : Text} (h : (l.var : Int) + 1 ≤ 2147483647) (hs : NoHead isDigit s) :
    lit (showInt (number l) ++ s) = .ok l s :=
  tryMap_ok (decInt_showInt (number_range h) hs) (by simp only [fromIpasir_number h])

theorem lit_zero (s : Text) : lit ('0' :: s) = .back :=
  tryMap_none (decInt_zero ⟨by decide, by decide⟩) rfl

theorem noHead_append {f : Char → Bool} {s t : Text} (hs : s ≠ []) (h : ∀ c ∈ s, f c = false) : NoHead f (s ++ t) := by
  cases s with
  | nil => exact absurd rfl hs
  | cons c r => exact noHead_cons (h c List.mem_cons_self)

theorem isSpace_showInt (i : Int) : ∀ c ∈ showInt i, isSpace c = false := by
  intro c hc
  cases h : isSpace c with
  | false => rfl
  | true => have := isWs_showInt i c hc; rw [isWs_of_isSpace h] at this; cases this

theorem ClauseText.noSpace {c : Clause} {t : Text} (h : ClauseText c t) : NoHead isSpace t := by
  cases h with
  | zero => exact noHead_cons (by decide)
  | cons h1 h2 h3 => exact noHead_append (showInt_ne_nil _) (isSpace_showInt _)

theorem Sep.noDigit {s : Text} (h : Sep s) (t : Text) : NoHead isDigit (s ++ t) :=
  noHead_append h.1 fun c hc => isDigit_of_isSpace (h.space c hc)

theorem length_pos_of_ne {t : Text} (h : t ≠ []) : 0 < t.length := List.length_pos_iff.mpr h

/-- The loop over the literals stops before the separator in front of the final `0`. -/
theorem sepLoop_clause {c : Clause} {t : Text} (h : ClauseText c t) : ∀ (s : Text) (f : Nat), Sep s → t.length ≤ f →
    ∃ s', Sep s' ∧ sepLoop lit space1 f (s ++ t) = .ok c (s' ++ ['0']) := by
  induction h with
  | zero =>
    intro s f hs hf
    cases f with
    | zero => simp at hf
    | succ f =>
      refine ⟨s, hs, ?_⟩
      rw [sepLoop, space1_ok hs.1 hs.space (noHead_cons (by decide))]
      simp only [lit_zero]
  | @cons l c s0 t h1 h2 h3 ih =>
    intro s f hs hf
    cases f with
    | zero =>
      have := length_pos_of_ne (showInt_ne_nil (number l))
      simp only [List.length_append] at hf
      omega
    | succ f =>
      obtain ⟨s', hs', e⟩ := ih s0 f h2 (by
        simp only [List.length_append] at hf
        have := length_pos_of_ne (showInt_ne_nil (number l))
        omega)
      refine ⟨s', hs', ?_⟩
      rw [sepLoop, space1_ok hs.1 hs.space (noHead_append (showInt_ne_nil _) (isSpace_showInt _))]
      simp only [lit_ok h1 (h2.noDigit t), e]

theorem clauseEnding_ok {s : Text} (hs : ∀ c ∈ s, isSpace c = true) : clauseEnding (s ++ ['0']) = .ok () [] := by
  rw [clauseEnding, alt_back]
  · rw [seqP_ok (space0_ok hs (noHead_cons (by decide))), seqP_ok char_ok]
    rfl
  · rw [seqP_ok (space0_ok hs (noHead_cons (by decide)))]
    rfl

/-- A clause is read back, whatever the space between its literals. -/
theorem clause_ok {c : Clause} {t : Text} (h : ClauseText c t) : clause t = .ok c [] := by
  rw [clause]
  cases h with
  | zero =>
    have : separated0 lit space1 ['0'] = .ok [] ['0'] := by rw [separated0, lit_zero]
    rw [seqP_ok this]
    have e : clauseEnding ['0'] = .ok () [] := clauseEnding_ok (s := []) (by simp)
    rw [seqP_ok e]
    rfl
  | @cons l c s t h1 h2 h3 =>
    obtain ⟨s', hs', e⟩ := sepLoop_clause h3 s (showInt (number l) ++ (s ++ t)).length h2 (by
      simp only [List.length_append]; omega)
    have : separated0 lit space1 (showInt (number l) ++ (s ++ t)) = .ok (l :: c) (s' ++ ['0']) := by
      rw [separated0, lit_ok h1 (h2.noDigit t)]
      simp only [e]
    rw [seqP_ok this, seqP_ok (clauseEnding_ok hs'.space)]
    rfl

theorem clause_parse {c : Clause} {t : Text} (h : ClauseText c t) : parse clause t = some c := parse_ok (clause_ok h)

/-! ### Ends of lines -/

theorem ClauseText.ne_nil {c : Clause} {t : Text} (h : ClauseText c t) : t ≠ [] := by
  cases h with
  | zero => simp
  | cons h1 h2 h3 => simp [showInt_ne_nil]

/-- All texts of data end in `0`. -/
theorem ClauseText.snoc {c : Clause} {t : Text} (h : ClauseText c t) : ∃ r, t = r ++ ['0'] := by
  induction h with
  | zero => exact ⟨[], rfl⟩
  | @cons l c s t h1 h2 h3 ih =>
    obtain ⟨r, e⟩ := ih
    exact ⟨showInt (number l) ++ (s ++ r), by rw [e]; simp⟩

theorem snoc_last {t r : Text} (h : t = r ++ ['0']) : ∀ c r', t = r' ++ [c] → isWs c = false := by
  intro c r' e
  rw [h] at e
  have := List.append_inj_right' e rfl
  cases this
  decide

theorem ClauseText.head {c : Clause} {t : Text} (h : ClauseText c t) : ∀ x r, t = x :: r →
    isWs x = false ∧ (isDigit x = true ∨ x = '-') := by
  cases h with
  | zero => intro x r e; cases e; exact ⟨by decide, Or.inl (by decide)⟩
  | @cons l c s t h1 h2 h3 =>
    intro x r e
    have hx : x ∈ showInt (number l) := by
      cases hi : showInt (number l) with
      | nil => exact absurd hi (showInt_ne_nil _)
      | cons y ys => rw [hi] at e; cases e; exact List.mem_cons_self
    refine ⟨isWs_showInt _ _ hx, ?_⟩
    rw [showInt] at hx
    split at hx
    · cases hx with
      | head => exact Or.inr rfl
      | tail _ hx => exact Or.inl (isDigit_showNat _ _ hx)
    · exact Or.inl (isDigit_showNat _ _ hx)

theorem ClauseText.tight {c : Clause} {t : Text} (h : ClauseText c t) : Tight t := by
  obtain ⟨r, e⟩ := h.snoc
  exact ⟨fun x r e => (h.head x r e).1, snoc_last e⟩

theorem Sep.newline {s : Text} (h : Sep s) : '\n' ∉ s := by
  intro hm
  rcases h.2 _ hm with e | e <;> cases e

theorem ClauseText.newline {c : Clause} {t : Text} (h : ClauseText c t) : '\n' ∉ t := by
  induction h with
  | zero => decide
  | cons h1 h2 h3 ih =>
    simp only [List.mem_append, not_or]
    exact ⟨newline_showInt _, h2.newline, ih⟩

/-! ### Comments -/

theorem dropWhile_eq_nil {f : Char → Bool} {s : Text} (h : ∀ c ∈ s, f c = true) : s.dropWhile f = [] := by
  have := dropWhile_append (w := s) (s := []) h (noHead_nil f)
  rwa [List.append_nil] at this

theorem takeWhile_eq_self {f : Char → Bool} {s : Text} (h : ∀ c ∈ s, f c = true) : s.takeWhile f = s := by
  have := takeWhile_append (w := s) (s := []) h (noHead_nil f)
  rwa [List.append_nil] at this

theorem tillLineEnding_ok {t : Text} (h1 : '\n' ∉ t) (h2 : '\r' ∉ t) : tillLineEnding t = .ok t [] := by
  have h : ∀ c ∈ t, (!(c == '\r' || c == '\n')) = true := by
    intro c hc
    have e1 : c ≠ '\n' := fun e => h1 (e ▸ hc)
    have e2 : c ≠ '\r' := fun e => h2 (e ▸ hc)
    simp [e1, e2]
  simp only [tillLineEnding, dropWhile_eq_nil h, takeWhile_eq_self h]

theorem comment_ok {t : Text} (h : CommentText ('c' :: t)) : comment ('c' :: t) = .ok ('c' :: t) [] := by
  have h1 : '\n' ∉ t := fun hh => h.nl (List.mem_cons_of_mem _ hh)
  have h2 : '\r' ∉ t := fun hh => h.cr (List.mem_cons_of_mem _ hh)
  have : (seqP (char 'c') fun _ => seqP tillLineEnding fun _ => opt lineEnding) ('c' :: t) = .ok none [] := by
    rw [seqP_ok char_ok, seqP_ok (tillLineEnding_ok h1 h2)]
    exact opt_back rfl
  simp only [comment, taken, this]
  simp

theorem comment_back {x : Char} {r : Text} (h : x ≠ 'c') : comment (x :: r) = .back := by
  have : (seqP (char 'c') fun _ => seqP tillLineEnding fun _ => opt lineEnding) (x :: r) = .back :=
    seqP_back (char_back h)
  simp only [comment, taken, this]

theorem CommentText.tight {t : Text} (h : CommentText ('c' :: t)) : Tight ('c' :: t) :=
  ⟨fun c r e => by cases e; decide, h.last⟩

/-! ### Lines -/

/-- What the parsers of lines have to satisfy for files to be read. -/
structure LineParser {α : Type} (R : α → Text → Prop) (p : P α) : Prop where
  tight : ∀ a t, R a t → Tight t
  ne : ∀ a t, R a t → t ≠ []
  parse : ∀ a t, R a t → P.parse p t = some a

theorem digit_ne {x d : Char} (h : isDigit x = true ∨ x = '-') (hd : isDigit d = false) (hm : d ≠ '-') : x ≠ d := by
  rcases h with h | h
  · exact ne_of_isDigit h hd
  · intro e; exact hm (e ▸ h)

theorem cnf_lineParser : LineParser CnfLineText cnfLine := by
  constructor
  · intro a t h
    cases h with
    | clause h => exact h.tight
    | comment h => exact h.tight
  · intro a t h
    cases h with
    | clause h => exact h.ne_nil
    | comment h => simp
  · intro a t h
    cases h with
    | clause h =>
      apply parse_ok
      rw [cnfLine, alt_back]
      · exact map_ok (clause_ok h)
      · apply map_back
        cases t with
        | nil => exact absurd rfl h.ne_nil
        | cons x r => exact comment_back (digit_ne (h.head x r rfl).2 (by decide) (by decide))
    | comment h =>
      apply parse_ok
      exact alt_ok (map_ok (comment_ok h))

theorem softClause_ok {w : Nat} {c : Clause} {s t : Text} (hw : w ≤ usizeMax) (hs : Sep s) (h : ClauseText c t) :
    softClause (showNat w ++ (s ++ t)) = .ok (w, c) [] := by
  rw [softClause, weight, seqP_ok (decUint_showNat hw (hs.noDigit t)), seqP_ok (space1_ok hs.1 hs.space h.noSpace),
    seqP_ok (clause_ok h)]
  rfl

theorem hardClause_ok {c : Clause} {s t : Text} (hs : Sep s) (h : ClauseText c t) :
    hardClause ('h' :: (s ++ t)) = .ok c [] := by
  rw [hardClause, seqP_ok char_ok, seqP_ok (cutErr_ok (space1_ok hs.1 hs.space h.noSpace))]
  exact cutErr_ok (clause_ok h)

theorem hardClause_back {x : Char} {r : Text} (h : x ≠ 'h') : hardClause (x :: r) = .back := by
  rw [hardClause]; exact seqP_back (char_back h)

theorem showNat_head (n : Nat) (s : Text) : ∃ x r, showNat n ++ s = x :: r ∧ isDigit x = true := by
  cases h : showNat n with
  | nil => exact absurd h (showNat_ne_nil n)
  | cons x r => exact ⟨x, r ++ s, rfl, isDigit_showNat n x (by rw [h]; exact List.mem_cons_self)⟩

theorem soft_snoc {p t : Text} {c : Clause} (h : ClauseText c t) : ∃ r, p ++ t = r ++ ['0'] := by
  obtain ⟨r, e⟩ := h.snoc
  exact ⟨p ++ r, by rw [e]; simp⟩

theorem soft_tight {w : Nat} {c : Clause} {s t : Text} (h : ClauseText c t) : Tight (showNat w ++ (s ++ t)) := by
  obtain ⟨x, r, e, hx⟩ := showNat_head w (s ++ t)
  obtain ⟨r', e'⟩ := soft_snoc (p := showNat w ++ s) h
  rw [List.append_assoc] at e'
  exact ⟨fun y r'' e'' => by rw [e] at e''; cases e''; exact isWs_of_isDigit hx, snoc_last e'⟩

theorem hard_tight {x : Char} {c : Clause} {s t : Text} (hx : isWs x = false) (h : ClauseText c t) :
    Tight (x :: (s ++ t)) := by
  obtain ⟨r', e'⟩ := soft_snoc (p := x :: s) h
  exact ⟨fun y r e => by cases e; exact hx, snoc_last e'⟩

theorem soft_ne_nil (w : Nat) (s : Text) : showNat w ++ s ≠ [] := by simp [showNat_ne_nil]

theorem soft_line {w : Nat} {s : Text} {p : P WcnfData} : alt (map WcnfData.comment comment) p (showNat w ++ s) =
    p (showNat w ++ s) := by
  obtain ⟨x, r, e, hx⟩ := showNat_head w s
  rw [e, alt_back (map_back (comment_back (ne_of_isDigit hx (by decide))))]

theorem wcnfData_ok {a : WcnfData} {t : Text} (h : WcnfLineText a t) (hc : ∀ x, a ≠ .comment x) :
    alt (map WcnfData.hard hardClause) (map (fun p => WcnfData.soft p.1 p.2) softClause) t = .ok a [] := by
  cases h with
  | hard h1 h2 => exact alt_ok (map_ok (hardClause_ok h1 h2))
  | @soft w c s t h1 h2 h3 =>
    obtain ⟨x, r, e, hx⟩ := showNat_head w (s ++ t)
    rw [e, alt_back (map_back (hardClause_back (ne_of_isDigit hx (by decide)))), ← e]
    rw [map_ok (softClause_ok h1 h2 h3)]
  | comment h => exact absurd rfl (hc _)

theorem wcnf_lineParser : LineParser WcnfLineText wcnfPost22Line := by
  constructor
  · intro a t h
    cases h with
    | hard h1 h2 => exact hard_tight (by decide) h2
    | soft h1 h2 h3 => exact soft_tight h3
    | comment h => exact h.tight
  · intro a t h
    cases h with
    | hard h1 h2 => simp
    | soft h1 h2 h3 => exact soft_ne_nil _ _
    | comment h => simp
  · intro a t h
    apply parse_ok
    rw [wcnfPost22Line]
    cases h with
    | hard h1 h2 =>
      rw [alt_back (map_back (comment_back (by decide)))]
      exact wcnfData_ok (.hard h1 h2) (fun x e => by cases e)
    | soft h1 h2 h3 =>
      rw [soft_line]
      exact wcnfData_ok (.soft h1 h2 h3) (fun x e => by cases e)
    | comment h => exact alt_ok (map_ok (comment_ok h))

theorem oldWcnf_lineParser (top : Nat) : LineParser (OldWcnfLineText top) (wcnfPre22Line top) := by
  constructor
  · intro a t h
    cases h with
    | hard h1 h2 h3 h4 => exact soft_tight h4
    | soft h1 h2 h3 h4 => exact soft_tight h4
    | comment h => exact h.tight
  · intro a t h
    cases h with
    | hard h1 h2 h3 h4 => exact soft_ne_nil _ _
    | soft h1 h2 h3 h4 => exact soft_ne_nil _ _
    | comment h => simp
  · intro a t h
    apply parse_ok
    rw [wcnfPre22Line]
    cases h with
    | hard h1 h2 h3 h4 =>
      rw [soft_line, map_ok (softClause_ok h1 h3 h4), if_pos h2]
    | soft h1 h2 h3 h4 =>
      rw [soft_line, map_ok (softClause_ok h1 h3 h4), if_neg (by omega)]
    | comment h => exact alt_ok (map_ok (comment_ok h))

theorem objIdx_ok {i : Nat} {s : Text} (h1 : 1 ≤ i) (h2 : i ≤ usizeMax) (hs : NoHead isDigit s) :
    objIdx (showNat i ++ s) = .ok i s := by
  obtain ⟨c, r, e1, e2, e3⟩ := showNat_pos (n := i) (by omega)
  have hr : readNat (c :: r) = i := by rw [← e1]; exact readNat_showNat i
  rw [objIdx]
  refine tryMap_ok (a := c :: r) ?_ (by rw [hr, if_pos h2])
  rw [e1, List.cons_append, seqP_ok (sat_ok e2)]
  exact map_ok (digit0_ok e3 hs)

theorem mcnf_lineParser : LineParser McnfLineText mcnfLine := by
  constructor
  · intro a t h
    cases h with
    | hard h1 h2 => exact hard_tight (by decide) h2
    | @soft i w c s s' s'' t h1 h2 h3 h4 h5 h6 h7 =>
      obtain ⟨r', e'⟩ := soft_snoc (p := 'o' :: (s ++ (showNat i ++ (s' ++ (showNat w ++ s''))))) h7
      simp only [List.cons_append, List.append_assoc] at e'
      exact ⟨fun y r e => by cases e; decide, snoc_last e'⟩
    | comment h => exact h.tight
  · intro a t h
    cases h with
    | hard h1 h2 => simp
    | soft h1 h2 h3 => simp
    | comment h => simp
  · intro a t h
    apply parse_ok
    rw [mcnfLine]
    cases h with
    | hard h1 h2 =>
      rw [alt_back (map_back (comment_back (by decide)))]
      exact alt_ok (map_ok (hardClause_ok h1 h2))
    | @soft i w c s s' s'' t h1 h2 h3 h4 h5 h6 h7 =>
      rw [alt_back (map_back (comment_back (by decide))), alt_back (map_back (hardClause_back (by decide)))]
      have hs : ∀ x ∈ s, isSpace x = true := fun x hx => by
        rcases h4 x hx with e | e <;> subst e <;> decide
      have : moSoftClause ('o' :: (s ++ (showNat i ++ (s' ++ (showNat w ++ (s'' ++ t)))))) = .ok (i, w, c) [] := by
        rw [moSoftClause, weight, seqP_ok char_ok, seqP_ok (space0_ok hs (showNat_noSpace i _)),
          seqP_ok (cutErr_ok (objIdx_ok h1 h2 (h5.noDigit _))),
          seqP_ok (cutErr_ok (space1_ok h5.1 h5.space (showNat_noSpace w _))),
          seqP_ok (cutErr_ok (decUint_showNat h3 (h6.noDigit _))),
          seqP_ok (cutErr_ok (space1_ok h6.1 h6.space h7.noSpace)), seqP_ok (cutErr_ok (clause_ok h7))]
        rfl
      rw [map_ok this]
    | comment h => exact alt_ok (map_ok (comment_ok h))

/-! ### Files -/

variable {α : Type} {R : α → Text → Prop} {p : P α}

theorem FileLines.newline {ls : List Text} {as : List α} (h : FileLines R ls as) : ∀ l ∈ ls, '\n' ∉ l := by
  induction h with
  | nil => intro l hl; cases hl
  | blank h1 h2 h3 ih =>
    intro l hl
    cases hl with
    | head => exact h2
    | tail _ hl => exact ih l hl
  | data h1 h2 h3 h4 h5 ih =>
    intro l hl
    cases hl with
    | head => exact h4
    | tail _ hl => exact ih l hl

theorem readLines_unlines {ls : List Text} (h : ∀ l ∈ ls, '\n' ∉ l) :
    readLines (unlines ls) = ls.map (· ++ ['\n']) := by
  induction ls with
  | nil => rfl
  | cons l ls ih =>
    rw [unlines, readLines_line (h l List.mem_cons_self), ih fun l' hl' => h l' (List.mem_cons_of_mem _ hl')]
    rfl

theorem trim_white {w : Text} (h : White w) : trim w = [] := by
  have ht : Tight [] := ⟨(fun c r e => nomatch e), (fun c r e => absurd e.symm (by simp))⟩
  have := trim_pad (w := w) (w' := []) ht h (fun c hc => nomatch hc)
  simpa using this

/-- Reading the lines of a body. -/
theorem body_ok (hp : LineParser R p) {ls : List Text} {as : List α} (h : FileLines R ls as) :
    body p (ls.map (· ++ ['\n'])) = some as := by
  induction h with
  | nil => rfl
  | blank h1 h2 h3 ih =>
    rw [List.map_cons, body, trim_newline, trim_white h1]
    exact ih
  | @data a t w w' ls as h1 h2 h3 h4 h5 ih =>
    rw [List.map_cons, body, trim_newline, trim_pad (hp.tight a t h1) h2 h3, if_neg (by
      have := hp.ne a t h1
      simpa using this), hp.parse a t h1, ih]

theorem FileLines.append {ls ls' : List Text} {as as' : List α} (h : FileLines R ls as) (h' : FileLines R ls' as') :
    FileLines R (ls ++ ls') (as ++ as') := by
  induction h with
  | nil => exact h'
  | blank h1 h2 h3 ih => exact .blank h1 h2 ih
  | data h1 h2 h3 h4 h5 ih => exact .data h1 h2 h3 h4 ih

theorem trim_comment {w t : Text} (hw : White w) : ∃ r, trim (w ++ 'c' :: t) = 'c' :: r := by
  rw [trim, trimStart_append hw]
  have h1 : trimStart ('c' :: t) = 'c' :: t := by
    simp [trimStart, List.dropWhile, show isWs 'c' = false by decide]
  rw [h1]
  simp only [trimEnd, List.reverse_cons]
  have : ∀ s : Text, ∃ r, ((s ++ ['c']).dropWhile isWs).reverse = 'c' :: r := by
    intro s
    induction s with
    | nil => exact ⟨[], rfl⟩
    | cons x s ih =>
      by_cases hx : isWs x = true
      · obtain ⟨r, e⟩ := ih
        exact ⟨r, by simpa [List.dropWhile, hx] using e⟩
      · exact ⟨s.reverse ++ [x], by simp [List.dropWhile, hx]⟩
  exact this t.reverse

theorem IgnoredLine.trim {l : Text} (h : IgnoredLine l) :
    (Text.trim (l ++ ['\n'])).isEmpty = true ∨
    ((Text.trim (l ++ ['\n'])).isEmpty = false ∧ startsWith ['c'] (Text.trim (l ++ ['\n'])) = true) := by
  rw [trim_newline]
  rcases h.2 with h | ⟨w, t, hw, e⟩
  · left; rw [trim_white h]; rfl
  · right
    obtain ⟨r, e'⟩ := trim_comment (t := t) hw
    rw [e, e']
    exact ⟨rfl, rfl⟩

theorem cnfHeader_ignored {pre : List Text} (h : ∀ l ∈ pre, IgnoredLine l) (ls : List Text) :
    cnfHeader (pre.map (· ++ ['\n']) ++ ls) = cnfHeader ls := by
  induction pre with
  | nil => rfl
  | cons l pre ih =>
    have ih := ih fun l' hl' => h l' (List.mem_cons_of_mem _ hl')
    rw [List.map_cons, List.cons_append, cnfHeader, ih]
    rcases (h l List.mem_cons_self).trim with h1 | ⟨h1, h2⟩
    · rw [if_pos h1]
    · rw [if_neg (by rw [h1]; simp), if_pos h2]

theorem wcnfHeader_ignored {pre : List Text} (h : ∀ l ∈ pre, IgnoredLine l) (ls : List Text) :
    wcnfHeader (pre.map (· ++ ['\n']) ++ ls) = wcnfHeader ls := by
  induction pre with
  | nil => rfl
  | cons l pre ih =>
    have ih := ih fun l' hl' => h l' (List.mem_cons_of_mem _ hl')
    rw [List.map_cons, List.cons_append, wcnfHeader, ih]
    rcases (h l List.mem_cons_self).trim with h1 | ⟨h1, h2⟩
    · rw [if_pos h1]
    · rw [if_neg (by rw [h1]; simp), if_pos h2]

theorem tag_ok {t s : Text} : tag t (t ++ s) = .ok () s := by
  simp [tag]

theorem tag_cnf (s : Text) : tag ['c', 'n', 'f'] ('c' :: 'n' :: 'f' :: s) = .ok () s := tag_ok

theorem tag_wcnf (s : Text) : tag ['w', 'c', 'n', 'f'] ('w' :: 'c' :: 'n' :: 'f' :: s) = .ok () s := tag_ok

theorem decUint_showNat_end {n max : Nat} (h : n ≤ max) : decUint max (showNat n) = .ok n [] := by
  have := decUint_showNat (s := []) h (noHead_nil _)
  rwa [List.append_nil] at this

theorem cnfPLine_ok {nv nc : Nat} {t : Text} (h : CnfHeaderText nv nc t) (h1 : nv ≤ u32Max) (h2 : nc ≤ usizeMax) :
    cnfPLine t = .ok (nv, nc) [] := by
  cases h with
  | @mk s s' s'' hs hs' hs'' =>
    rw [cnfPLine, seqP_ok char_ok, seqP_ok (space1_ok hs.1 hs.space (noHead_cons (by decide))),
      seqP_ok (cutErr_ok (tag_cnf _)), seqP_ok (space1_ok hs'.1 hs'.space (showNat_noSpace nv _)),
      seqP_ok (decUint_showNat h1 (hs''.noDigit _)), seqP_ok (space1_ok hs''.1 hs''.space (by
        have := showNat_noSpace nc []
        rwa [List.append_nil] at this)),
      seqP_ok (decUint_showNat_end h2)]
    rfl

theorem wcnfPLine_ok {nv nc top : Nat} {t : Text} (h : WcnfHeaderText nv nc top t) (h1 : nv ≤ u32Max) (h2 : nc ≤ usizeMax)
    (h3 : top ≤ usizeMax) : wcnfPLine t = .ok (nv, nc, top) [] := by
  cases h with
  | @mk s s' s'' s''' hs hs' hs'' hs''' =>
    rw [wcnfPLine, seqP_ok char_ok, seqP_ok (space1_ok hs.1 hs.space (noHead_cons (by decide))),
      seqP_ok (cutErr_ok (tag_wcnf _)), seqP_ok (space1_ok hs'.1 hs'.space (showNat_noSpace nv _)),
      seqP_ok (decUint_showNat h1 (hs''.noDigit _)), seqP_ok (space1_ok hs''.1 hs''.space (showNat_noSpace nc _)),
      seqP_ok (decUint_showNat h2 (hs'''.noDigit _)), seqP_ok (space1_ok hs'''.1 hs'''.space (by
        have := showNat_noSpace top []
        rwa [List.append_nil] at this)),
      seqP_ok (decUint_showNat_end h3)]
    rfl

theorem showNat_last {n : Nat} {c : Char} {p r : Text} (h : p ++ showNat n = r ++ [c]) : isWs c = false := by
  rcases List.eq_nil_or_concat (showNat n) with e | ⟨r', x, e⟩
  · exact absurd e (showNat_ne_nil n)
  · rw [List.concat_eq_append] at e
    rw [e, ← List.append_assoc] at h
    have := List.append_inj_right' h rfl
    cases this
    exact isWs_of_isDigit (isDigit_showNat n _ (by rw [e]; simp))

theorem CnfHeaderText.tight {nv nc : Nat} {t : Text} (h : CnfHeaderText nv nc t) : Tight t := by
  cases h with
  | @mk s s' s'' hs hs' hs'' =>
    refine ⟨fun y r e => by cases e; decide, fun c r e => ?_⟩
    refine showNat_last (n := nc) (p := 'p' :: (s ++ ('c' :: 'n' :: 'f' :: (s' ++ (showNat nv ++ s''))))) (r := r) ?_
    rw [← e]; simp

theorem WcnfHeaderText.tight {nv nc top : Nat} {t : Text} (h : WcnfHeaderText nv nc top t) : Tight t := by
  cases h with
  | @mk s s' s'' s''' hs hs' hs'' hs''' =>
    refine ⟨fun y r e => by cases e; decide, fun c r e => ?_⟩
    refine showNat_last (n := top)
      (p := 'p' :: (s ++ ('w' :: 'c' :: 'n' :: 'f' :: (s' ++ (showNat nv ++ (s'' ++ (showNat nc ++ s'''))))))) (r := r) ?_
    rw [← e]; simp

/-- Reading a CNF file. -/
theorem readCnf_ok {pre : List Text} {h w w' : Text} {ls : List Text} {ds : List CnfData} {nv nc : Nat}
    (hpre : ∀ l ∈ pre, IgnoredLine l) (hh : CnfHeaderText nv nc h) (hw : White w) (hw' : White w')
    (hnl : '\n' ∉ w ++ h ++ w') (h1 : nv ≤ u32Max) (h2 : nc ≤ usizeMax) (hls : FileLines CnfLineText ls ds) :
    cnfHeader (readLines (unlines (pre ++ (w ++ h ++ w') :: ls))) = some ((nv, nc), ls.map (· ++ ['\n'])) ∧
    readCnf (unlines (pre ++ (w ++ h ++ w') :: ls)) = some (nv, nc, ds) := by
  have e : cnfHeader (readLines (unlines (pre ++ (w ++ h ++ w') :: ls))) = some ((nv, nc), ls.map (· ++ ['\n'])) := by
    rw [readLines_unlines (by
      intro l hl
      rw [List.mem_append] at hl
      rcases hl with hl | hl
      · exact (hpre l hl).1
      · cases hl with
        | head => exact hnl
        | tail _ hl => exact hls.newline l hl), List.map_append, List.map_cons, cnfHeader_ignored hpre, cnfHeader,
      trim_newline, trim_pad hh.tight hw hw', parse_ok (cnfPLine_ok hh h1 h2)]
    cases hh with
    | mk hs hs' hs'' => rfl
  refine ⟨e, ?_⟩
  rw [readCnf, e]
  simp only [body_ok cnf_lineParser hls]

theorem clause_notP {t : Text} {c : Clause} (h : ClauseText c t) : ∀ x r, t = x :: r → x ≠ 'c' :=
  fun x r e => digit_ne (h.head x r e).2 (by decide) (by decide)

/-- Reading a WCNF file in the current format: comments before the first clause are not reported. -/
theorem readWcnf_ok {ls : List Text} {ds : List WcnfData} (h : FileLines WcnfLineText ls ds) :
    readWcnf (unlines ls) = some (none, ds.dropWhile isComment) := by
  rw [readWcnf, readLines_unlines h.newline]
  have key : ∀ {ls : List Text} {ds : List WcnfData}, FileLines WcnfLineText ls ds →
      (wcnfHeader (ls.map (· ++ ['\n'])) = some .empty ∧
        (ds.dropWhile isComment) = []) ∨
      ∃ d ds' ls', wcnfHeader (ls.map (· ++ ['\n'])) = some (.post22 d (ls'.map (· ++ ['\n']))) ∧
        FileLines WcnfLineText ls' ds' ∧
        (ds.dropWhile isComment) = d :: ds' := by
    intro ls ds h
    induction h with
    | nil => exact Or.inl ⟨rfl, rfl⟩
    | blank h1 h2 h3 ih =>
      rw [List.map_cons, wcnfHeader, trim_newline, trim_white h1]
      exact ih
    | @data a t w w' ls as h1 h2 h3 h4 h5 ih =>
      rw [List.map_cons, wcnfHeader, trim_newline, trim_pad (wcnf_lineParser.tight a t h1) h2 h3, if_neg (by
        have := wcnf_lineParser.ne a t h1
        simpa using this)]
      have hdata : (∀ x, a ≠ .comment x) → startsWith ['c'] t = false → (∃ d ds' ls',
          (if startsWith ['c'] t = true then wcnfHeader (ls.map (· ++ ['\n'])) else
            match parse (alt (map WcnfData.hard hardClause) (map (fun p => WcnfData.soft p.1 p.2) softClause)) t with
            | some d => some (.post22 d (ls.map (· ++ ['\n'])))
            | none =>
              match parse wcnfPLine t with
              | none => none
              | some (nv, nc, top) => some (.pre22 nv nc top (ls.map (· ++ ['\n'])))) =
          some (.post22 d (ls'.map (· ++ ['\n']))) ∧ FileLines WcnfLineText ls' ds' ∧
          ((a :: as).dropWhile isComment) = d :: ds') := by
        intro hc hst
        refine ⟨a, as, ls, ?_, h5, ?_⟩
        · rw [if_neg (by rw [hst]; simp), parse_ok (wcnfData_ok h1 hc)]
        · cases a with
          | comment x => exact absurd rfl (hc x)
          | hard c => rfl
          | soft w c => rfl
      cases h1 with
      | hard h6 h7 => exact Or.inr (hdata (fun x e => by cases e) rfl)
      | @soft w0 c s t h6 h7 h8 =>
        obtain ⟨x, r, e, hx⟩ := showNat_head w0 (s ++ t)
        refine Or.inr (hdata (fun x e => by cases e) ?_)
        rw [e]
        have := ne_of_isDigit hx (show isDigit 'c' = false by decide)
        simp [startsWith, List.isPrefixOf, this.symm]
      | comment h6 => exact ih
  rcases key h with ⟨e1, e2⟩ | ⟨d, ds', ls', e1, e2, e3⟩
  · rw [e1, e2]
  · rw [e1, e3]
    simp only [body_ok wcnf_lineParser e2]

theorem p_back {r : Text} :
    alt (map WcnfData.hard hardClause) (map (fun p => WcnfData.soft p.1 p.2) softClause) ('p' :: r) = .back := by
  rw [alt_back (map_back (hardClause_back (by decide)))]
  apply map_back
  rw [softClause, weight, decUint]
  apply seqP_back
  apply tryMap_back
  rw [seqP_ok (opt_back (char_back (by decide))), alt_back (seqP_back (sat_back (by decide)))]
  exact map_back (char_back (by decide))

/-- Reading a WCNF file in the old format. -/
theorem readOldWcnf_ok {pre : List Text} {h w w' : Text} {ls : List Text} {ds : List WcnfData} {nv nc top : Nat}
    (hpre : ∀ l ∈ pre, IgnoredLine l) (hh : WcnfHeaderText nv nc top h) (hw : White w) (hw' : White w')
    (hnl : '\n' ∉ w ++ h ++ w') (h1 : nv ≤ u32Max) (h2 : nc ≤ usizeMax) (h3 : top ≤ usizeMax)
    (hls : FileLines (OldWcnfLineText top) ls ds) :
    wcnfHeader (readLines (unlines (pre ++ (w ++ h ++ w') :: ls))) = some (.pre22 nv nc top (ls.map (· ++ ['\n']))) ∧
    readWcnf (unlines (pre ++ (w ++ h ++ w') :: ls)) = some (some nv, ds) := by
  have e : wcnfHeader (readLines (unlines (pre ++ (w ++ h ++ w') :: ls))) =
      some (.pre22 nv nc top (ls.map (· ++ ['\n']))) := by
    rw [readLines_unlines (by
      intro l hl
      rw [List.mem_append] at hl
      rcases hl with hl | hl
      · exact (hpre l hl).1
      · cases hl with
        | head => exact hnl
        | tail _ hl => exact hls.newline l hl), List.map_append, List.map_cons, wcnfHeader_ignored hpre, wcnfHeader,
      trim_newline, trim_pad hh.tight hw hw']
    have e2 := parse_ok (wcnfPLine_ok hh h1 h2 h3)
    cases hh with
    | @mk s s' s'' s''' hs hs' hs'' hs''' =>
      rw [if_neg (by simp), if_neg (by simp [startsWith, List.isPrefixOf])]
      have e1 : ∀ r, parse (alt (map WcnfData.hard hardClause) (map (fun p => WcnfData.soft p.1 p.2) softClause))
          ('p' :: r) = none := by
        intro r
        simp only [parse, p_back]
      rw [e1]
      simp only [e2]
  refine ⟨e, ?_⟩
  rw [readWcnf, e]
  simp only [body_ok (oldWcnf_lineParser top) hls]

/-- Reading an MCNF file. -/
theorem readMcnf_ok {ls : List Text} {ds : List McnfData} (h : FileLines McnfLineText ls ds) :
    readMcnf (unlines ls) = some ds := by
  rw [readMcnf, readLines_unlines h.newline, body_ok mcnf_lineParser h]

/-! ### Writers -/

theorem toIpasir_ok {l : Lit} (h : (l.var : Int) + 1 ≤ 2147483647) : l.toIpasir = .ok (number l) := by
  have h2 : i32Max = 2147483647 := by decide
  rw [← h2] at h
  rw [Lit.toIpasir, if_pos h, number]

theorem intText_ok {r : Res Empty Int} {n : Int} (h : r = .ok n) : intText r = some (showInt n ++ [' ']) := by
  subst h; rfl

theorem writeAll_cons {β : Type} {f : β → Option Text} {x : β} {xs : List β} {t r : Text} (h : f x = some t)
    (h' : writeAll f xs = some r) : writeAll f (x :: xs) = some (t ++ r) := by
  rw [writeAll, h, h']

theorem writeLits_ok {c : Clause} (h : Writable c) : ∃ t, writeLits c = some t ∧ ClauseText c (t ++ ['0']) := by
  induction c with
  | nil => exact ⟨[], rfl, .zero⟩
  | cons l c ih =>
    obtain ⟨t, e, ht⟩ := ih fun l' hl' => h l' (List.mem_cons_of_mem _ hl')
    have hl := h l List.mem_cons_self
    refine ⟨showInt (number l) ++ [' '] ++ t, ?_, ?_⟩
    · rw [writeLits] at e ⊢
      exact writeAll_cons (intText_ok (toIpasir_ok hl)) e
    · have := ClauseText.cons hl Sep.single ht
      simpa using this

theorem writeClause_ok {c : Clause} (h : Writable c) :
    ∃ t, ClauseText c t ∧ '\n' ∉ t ∧ writeClause c = some (t ++ ['\n']) := by
  obtain ⟨t, e, ht⟩ := writeLits_ok h
  exact ⟨t ++ ['0'], ht, ht.newline, by simp [writeClause, e]⟩

/-- A writer of lines produces the text of a datum and a line break. -/
def LineWriter {β : Type} (R : α → Text → Prop) (f : β → Option Text) (g : β → α) (x : β) : Prop :=
  ∃ t, R (g x) t ∧ '\n' ∉ t ∧ f x = some (t ++ ['\n'])

theorem writeAll_ok {β : Type} {f : β → Option Text} {g : β → α} {xs : List β}
    (h : ∀ x ∈ xs, LineWriter R f g x) : ∃ ls, writeAll f xs = some (unlines ls) ∧ FileLines R ls (xs.map g) := by
  induction xs with
  | nil => exact ⟨[], rfl, .nil⟩
  | cons x xs ih =>
    obtain ⟨t, h1, h2, h3⟩ := h x List.mem_cons_self
    obtain ⟨ls, h4, h5⟩ := ih fun y hy => h y (List.mem_cons_of_mem _ hy)
    refine ⟨t :: ls, by simp [writeAll, h3, h4, unlines], ?_⟩
    have := FileLines.data (w := []) (w' := []) h1 (fun c hc => by cases hc) (fun c hc => by cases hc)
      (by simpa using h2) h5
    simpa using this

theorem hard_writer {c : Clause} (h : Writable c) : LineWriter WcnfLineText writeHard (fun c => .hard c) c := by
  obtain ⟨t, h1, h2, h3⟩ := writeClause_ok h
  refine ⟨'h' :: ([' '] ++ t), .hard Sep.single h1, by simpa using h2, ?_⟩
  simp [writeHard, prefixed, h3]

theorem soft_writer {p : Clause × Nat} (h : Writable p.1) (hw : p.2 ≤ usizeMax) :
    LineWriter WcnfLineText writeSoft (fun p => .soft p.2 p.1) p := by
  obtain ⟨t, h1, h2, h3⟩ := writeClause_ok h
  refine ⟨showNat p.2 ++ ([' '] ++ t), .soft hw Sep.single h1, ?_, ?_⟩
  · have := newline_showNat p.2
    simp [this, h2]
  · simp [writeSoft, prefixed, h3]

theorem moHard_writer {c : Clause} (h : Writable c) : LineWriter McnfLineText writeHard (fun c => .hard c) c := by
  obtain ⟨t, h1, h2, h3⟩ := writeClause_ok h
  refine ⟨'h' :: ([' '] ++ t), .hard Sep.single h1, by simpa using h2, ?_⟩
  simp [writeHard, prefixed, h3]

theorem moSoft_writer {i : Nat} {p : Clause × Nat} (h : Writable p.1) (hw : p.2 ≤ usizeMax) (hi : i + 1 ≤ usizeMax) :
    LineWriter McnfLineText (writeMoSoft i) (fun p => .soft (i + 1) p.2 p.1) p := by
  obtain ⟨t, h1, h2, h3⟩ := writeClause_ok h
  refine ⟨'o' :: ([' '] ++ (showNat (i + 1) ++ ([' '] ++ (showNat p.2 ++ ([' '] ++ t))))),
    .soft (by omega) hi hw (by simp) Sep.single Sep.single h1, ?_, ?_⟩
  · have := newline_showNat p.2
    have := newline_showNat (i + 1)
    simp [*]
  · simp [writeMoSoft, prefixed, h3]

end RustSat.DimacsSpec
