import Verif.Model.Text

/-
Lemmas about text, decimal numbers and the parser combinators.
-/

namespace RustSat
namespace Text

theorem toNat_digitChar {n : Nat} (h : n < 10) : (digitChar n).toNat = 48 + n := by
  have : n = 0 ∨ n = 1 ∨ n = 2 ∨ n = 3 ∨ n = 4 ∨ n = 5 ∨ n = 6 ∨ n = 7 ∨ n = 8 ∨ n = 9 := by omega
  rcases this with h | h | h | h | h | h | h | h | h | h <;> subst h <;> rfl

theorem isDigit_digitChar {n : Nat} (h : n < 10) : isDigit (digitChar n) = true := by
  simp only [isDigit, toNat_digitChar h, decide_eq_true_eq]; omega

theorem isDigit19_digitChar {n : Nat} (h : n < 10) (h0 : 0 < n) : isDigit19 (digitChar n) = true := by
  simp only [isDigit19, toNat_digitChar h, decide_eq_true_eq]; omega

theorem isDigit_of_isDigit19 {c : Char} (h : isDigit19 c = true) : isDigit c = true := by
  simp only [isDigit19, isDigit, decide_eq_true_eq] at *; omega

theorem isWs_of_isDigit {c : Char} (h : isDigit c = true) : isWs c = false := by
  simp only [isDigit, decide_eq_true_eq] at h
  simp only [isWs, Bool.or_eq_false_iff, decide_eq_false_iff_not, beq_eq_false_iff_ne]
  omega

theorem readNat_append (s : Text) (c : Char) : readNat (s ++ [c]) = readNat s * 10 + (c.toNat - 48) := by
  simp [readNat, List.foldl_append]

/-- The digits of a number, and that reading them gives the number back. -/
theorem showDigits_spec : ∀ (f n : Nat), n < f →
    readNat (showDigits f n) = n ∧ (∀ c ∈ showDigits f n, isDigit c = true) ∧
    ∃ c r, showDigits f n = c :: r ∧ (0 < n → isDigit19 c = true) ∧ (n = 0 → c = '0' ∧ r = []) := by
  intro f
  induction f with
  | zero => intro n h; omega
  | succ f ih =>
    intro n h
    rw [showDigits]
    by_cases hn : n < 10
    · rw [if_pos hn]
      refine ⟨?_, ?_, digitChar n, [], rfl, fun h0 => isDigit19_digitChar hn h0, fun h0 => by subst h0; exact ⟨rfl, rfl⟩⟩
      · simp [readNat, toNat_digitChar hn]
      · intro c hc; rw [List.mem_singleton] at hc; subst hc; exact isDigit_digitChar hn
    · rw [if_neg hn]
      obtain ⟨h1, h2, c, r, h3, h4, h5⟩ := ih (n / 10) (by omega)
      have hm : n % 10 < 10 := Nat.mod_lt _ (by omega)
      refine ⟨?_, ?_, c, r ++ [digitChar (n % 10)], by rw [h3]; rfl, fun _ => h4 (by omega), fun h0 => by omega⟩
      · rw [readNat_append, h1, toNat_digitChar hm]; omega
      · intro d hd
        rw [List.mem_append] at hd
        rcases hd with hd | hd
        · exact h2 d hd
        · rw [List.mem_singleton] at hd; subst hd; exact isDigit_digitChar hm

theorem readNat_showNat (n : Nat) : readNat (showNat n) = n := (showDigits_spec (n + 1) n (by omega)).1

theorem isDigit_showNat (n : Nat) : ∀ c ∈ showNat n, isDigit c = true := (showDigits_spec (n + 1) n (by omega)).2.1

theorem showNat_zero : showNat 0 = ['0'] := rfl

theorem showNat_pos {n : Nat} (h : 0 < n) : ∃ c r, showNat n = c :: r ∧ isDigit19 c = true ∧ ∀ d ∈ r, isDigit d = true := by
  obtain ⟨_, h2, c, r, h3, h4, _⟩ := showDigits_spec (n + 1) n (by omega)
  refine ⟨c, r, h3, h4 h, fun d hd => h2 d ?_⟩
  rw [h3]; exact List.mem_cons_of_mem _ hd

theorem showNat_ne_nil (n : Nat) : showNat n ≠ [] := by
  obtain ⟨_, _, c, r, h, _⟩ := showDigits_spec (n + 1) n (by omega)
  rw [showNat, h]; simp

/-! ### Trimming -/

theorem trimStart_append {w s : Text} (h : ∀ c ∈ w, isWs c = true) : trimStart (w ++ s) = trimStart s := by
  induction w with
  | nil => rfl
  | cons c w ih =>
    have := ih fun d hd => h d (List.mem_cons_of_mem _ hd)
    simpa [trimStart, List.dropWhile, h c List.mem_cons_self] using this

theorem trimEnd_append {w s : Text} (h : ∀ c ∈ w, isWs c = true) : trimEnd (s ++ w) = trimEnd s := by
  have h1 := trimStart_append (w := w.reverse) (s := s.reverse) (fun c hc => h c (by simpa using hc))
  simp only [trimStart] at h1
  simp only [trimEnd, List.reverse_append, h1]

/-- The text neither starts nor ends with white space. -/
structure Tight (s : Text) : Prop where
  head : ∀ c r, s = c :: r → isWs c = false
  last : ∀ c r, s = r ++ [c] → isWs c = false

theorem Tight.trimStart {s t : Text} (h : ∀ c r, s = c :: r → isWs c = false) (hs : s ≠ []) :
    Text.trimStart (s ++ t) = s ++ t := by
  cases s with
  | nil => exact absurd rfl hs
  | cons c r => simp [Text.trimStart, List.dropWhile, h c r rfl]

theorem Tight.trimEnd {s : Text} (h : ∀ c r, s = r ++ [c] → isWs c = false) : Text.trimEnd s = s := by
  rcases List.eq_nil_or_concat s with e | ⟨r, c, e⟩
  · subst e; rfl
  · rw [List.concat_eq_append] at e
    have := h c r e
    subst e
    simp [Text.trimEnd, List.dropWhile, this]

/-- White space around a text without white space at its ends is removed. -/
theorem trim_pad {s w w' : Text} (h : Tight s) (hw : ∀ c ∈ w, isWs c = true) (hw' : ∀ c ∈ w', isWs c = true) :
    trim (w ++ s ++ w') = s := by
  rw [trim, List.append_assoc, trimStart_append hw]
  by_cases hs : s = []
  · subst hs
    have := trimStart_append (w := w') (s := []) hw'
    rw [List.append_nil] at this
    rw [List.nil_append, this]; rfl
  · rw [Tight.trimStart h.head hs, trimEnd_append hw', Tight.trimEnd h.last]

theorem trim_tight {s : Text} (h : Tight s) : trim s = s := by
  have := trim_pad (w := []) (w' := []) h (by simp) (by simp)
  simpa using this

theorem isWs_newline : isWs '\n' = true := by decide

theorem trim_newline (s : Text) : trim (s ++ ['\n']) = trim s := by
  by_cases h : ∀ c ∈ s, isWs c = true
  · have h1 : trimStart (s ++ ['\n']) = [] := by
      rw [trimStart_append h]; rfl
    have h2 : trimStart s = [] := by
      have := trimStart_append (w := s) (s := []) h
      rw [List.append_nil] at this; exact this
    rw [trim, trim, h1, h2]
  · have h1 : trimStart (s ++ ['\n']) = trimStart s ++ ['\n'] := by
      induction s with
      | nil => exact absurd (fun c hc => by cases hc) h
      | cons c s ih =>
        by_cases hc : isWs c = true
        · have := ih (fun hh => h fun d hd => by
            cases hd with
            | head => exact hc
            | tail _ hd => exact hh d hd)
          simpa [trimStart, List.dropWhile, hc] using this
        · simp [trimStart, List.dropWhile, hc]
    rw [trim, trim, h1, trimEnd_append (fun c hc => by rw [List.mem_singleton] at hc; subst hc; exact isWs_newline)]

/-! ### Lines -/

theorem readLines_line {l s : Text} (h : '\n' ∉ l) : readLines (l ++ '\n' :: s) = (l ++ ['\n']) :: readLines s := by
  induction l with
  | nil => simp [readLines]
  | cons c l ih =>
    have hc : c ≠ '\n' := fun e => h (by rw [e]; exact List.mem_cons_self)
    have := ih (fun hh => h (List.mem_cons_of_mem _ hh))
    simp only [List.cons_append, readLines, if_neg hc, this]

theorem readLines_last {l : Text} (h : '\n' ∉ l) (hl : l ≠ []) : readLines l = [l] := by
  induction l with
  | nil => exact absurd rfl hl
  | cons c l ih =>
    have hc : c ≠ '\n' := fun e => h (by rw [e]; exact List.mem_cons_self)
    by_cases hl' : l = []
    · subst hl'; simp [readLines, hc]
    · have := ih (fun hh => h (List.mem_cons_of_mem _ hh)) hl'
      simp only [readLines, if_neg hc, this]

theorem not_newline_of_isDigit {c : Char} (h : isDigit c = true) : c ≠ '\n' := by
  intro e; subst e; revert h; decide

theorem newline_showNat (n : Nat) : '\n' ∉ showNat n :=
  fun h => not_newline_of_isDigit (isDigit_showNat n _ h) rfl

theorem newline_showInt (i : Int) : '\n' ∉ showInt i := by
  rw [showInt]
  split
  · intro h
    cases h with
    | tail _ h => exact newline_showNat _ h
  · exact newline_showNat _

/-- The first and last characters of a written integer are not white space. -/
theorem showInt_ne_nil (i : Int) : showInt i ≠ [] := by
  rw [showInt]; split
  · simp
  · exact showNat_ne_nil _

theorem isWs_showInt (i : Int) : ∀ c ∈ showInt i, isWs c = false := by
  rw [showInt]; split
  · intro c hc
    cases hc with
    | head => decide
    | tail _ hc => exact isWs_of_isDigit (isDigit_showNat _ _ hc)
  · intro c hc; exact isWs_of_isDigit (isDigit_showNat _ _ hc)

end Text

namespace P
open Text
variable {α β : Type}

theorem seqP_ok {p : P α} {f : α → P β} {s r : Text} {a : α} (h : p s = .ok a r) : seqP p f s = f a r := by
  simp only [seqP, h]

theorem seqP_back {p : P α} {f : α → P β} {s : Text} (h : p s = .back) : seqP p f s = .back := by
  simp only [seqP, h]

theorem seqP_cut {p : P α} {f : α → P β} {s : Text} (h : p s = .cut) : seqP p f s = .cut := by
  simp only [seqP, h]

theorem map_ok {p : P α} {f : α → β} {s r : Text} {a : α} (h : p s = .ok a r) : map f p s = .ok (f a) r := by
  simp only [map, seqP, h, retP]

theorem map_back {p : P α} {f : α → β} {s : Text} (h : p s = .back) : map f p s = .back := by
  simp only [map, seqP, h]

theorem map_cut {p : P α} {f : α → β} {s : Text} (h : p s = .cut) : map f p s = .cut := by
  simp only [map, seqP, h]

theorem alt_ok {p q : P α} {s r : Text} {a : α} (h : p s = .ok a r) : alt p q s = .ok a r := by
  simp only [alt, h]

theorem alt_back {p q : P α} {s : Text} (h : p s = .back) : alt p q s = q s := by
  simp only [alt, h]

theorem cutErr_ok {p : P α} {s r : Text} {a : α} (h : p s = .ok a r) : cutErr p s = .ok a r := by
  simp only [cutErr, h]

theorem opt_ok {p : P α} {s r : Text} {a : α} (h : p s = .ok a r) : opt p s = .ok (some a) r := by
  simp only [opt, h]

theorem opt_back {p : P α} {s : Text} (h : p s = .back) : opt p s = .ok none s := by
  simp only [opt, h]

theorem tryMap_ok {p : P α} {f : α → Option β} {s r : Text} {a : α} {b : β} (h : p s = .ok a r) (hf : f a = some b) :
    tryMap f p s = .ok b r := by
  simp only [tryMap, h, hf]

theorem tryMap_none {p : P α} {f : α → Option β} {s r : Text} {a : α} (h : p s = .ok a r) (hf : f a = none) :
    tryMap f p s = .back := by
  simp only [tryMap, h, hf]

theorem tryMap_back {p : P α} {f : α → Option β} {s : Text} (h : p s = .back) : tryMap f p s = .back := by
  simp only [tryMap, h]

theorem sat_ok {f : Char → Bool} {c : Char} {r : Text} (h : f c = true) : sat f (c :: r) = .ok c r := by
  simp only [sat, h, if_true]

theorem sat_back {f : Char → Bool} {c : Char} {r : Text} (h : f c = false) : sat f (c :: r) = .back := by
  simp [sat, h]

theorem char_ok {c : Char} {r : Text} : char c (c :: r) = .ok c r := sat_ok (by simp)

theorem char_back {c d : Char} {r : Text} (h : d ≠ c) : char c (d :: r) = .back := sat_back (by simpa using h)

theorem parse_ok {p : P α} {s : Text} {a : α} (h : p s = .ok a []) : parse p s = some a := by
  simp only [parse, h]

/-- The next character, if any, does not satisfy the predicate. -/
def NoHead (f : Char → Bool) (s : Text) : Prop := ∀ c r, s = c :: r → f c = false

theorem noHead_nil (f : Char → Bool) : NoHead f [] := fun _ _ h => by cases h

theorem noHead_cons {f : Char → Bool} {c : Char} {r : Text} (h : f c = false) : NoHead f (c :: r) :=
  fun _ _ e => by cases e; exact h

theorem dropWhile_append {f : Char → Bool} {w s : Text} (hw : ∀ c ∈ w, f c = true) (hs : NoHead f s) :
    (w ++ s).dropWhile f = s := by
  induction w with
  | nil =>
    cases s with
    | nil => rfl
    | cons c r => simp [List.dropWhile, hs c r rfl]
  | cons c w ih =>
    have := ih fun d hd => hw d (List.mem_cons_of_mem _ hd)
    simpa [List.dropWhile, hw c List.mem_cons_self] using this

theorem takeWhile_append {f : Char → Bool} {w s : Text} (hw : ∀ c ∈ w, f c = true) (hs : NoHead f s) :
    (w ++ s).takeWhile f = w := by
  induction w with
  | nil =>
    cases s with
    | nil => rfl
    | cons c r => simp [List.takeWhile, hs c r rfl]
  | cons c w ih =>
    have := ih fun d hd => hw d (List.mem_cons_of_mem _ hd)
    simpa [List.takeWhile, hw c List.mem_cons_self] using this

theorem space0_ok {w s : Text} (hw : ∀ c ∈ w, isSpace c = true) (hs : NoHead isSpace s) : space0 (w ++ s) = .ok () s := by
  rw [space0, dropWhile_append hw hs]

theorem space1_ok {w s : Text} (hn : w ≠ []) (hw : ∀ c ∈ w, isSpace c = true) (hs : NoHead isSpace s) :
    space1 (w ++ s) = .ok () s := by
  cases w with
  | nil => exact absurd rfl hn
  | cons c w =>
    simp only [List.cons_append, space1, hw c List.mem_cons_self, if_true]
    rw [dropWhile_append (fun d hd => hw d (List.mem_cons_of_mem _ hd)) hs]

theorem space1_single {s : Text} (hs : NoHead isSpace s) : space1 (' ' :: s) = .ok () s :=
  space1_ok (w := [' ']) (by simp) (by decide) hs

theorem space1_back {s : Text} (hs : NoHead isSpace s) : space1 s = .back := by
  cases s with
  | nil => rfl
  | cons c r => simp [space1, hs c r rfl]

theorem digit0_ok {w s : Text} (hw : ∀ c ∈ w, isDigit c = true) (hs : NoHead isDigit s) : digit0 (w ++ s) = .ok w s := by
  rw [digit0, dropWhile_append hw hs, takeWhile_append hw hs]

theorem isSpace_of_isDigit {c : Char} (h : isDigit c = true) : isSpace c = false := by
  simp only [isDigit, decide_eq_true_eq] at h
  simp only [isSpace, Bool.or_eq_false_iff, beq_eq_false_iff_ne]
  constructor <;> (intro e; subst e; revert h; decide)

theorem isDigit_of_isSpace {c : Char} (h : isSpace c = true) : isDigit c = false := by
  cases hd : isDigit c with
  | false => rfl
  | true => rw [isSpace_of_isDigit hd] at h; cases h

theorem isWs_of_isSpace {c : Char} (h : isSpace c = true) : isWs c = true := by
  simp only [isSpace, Bool.or_eq_true, beq_iff_eq] at h
  rcases h with h | h <;> subst h <;> decide

theorem ne_of_isDigit {c d : Char} (h : isDigit c = true) (hd : isDigit d = false) : c ≠ d := by
  intro e; subst e; rw [hd] at h; cases h

theorem showNat_noSpace (n : Nat) (s : Text) : NoHead isSpace (showNat n ++ s) := by
  intro c r e
  cases h : showNat n with
  | nil => exact absurd h (showNat_ne_nil n)
  | cons d t =>
    rw [h] at e
    cases e
    exact isSpace_of_isDigit (isDigit_showNat n c (by rw [h]; exact List.mem_cons_self))

/-- A written number is read back, whatever non-digit follows. -/
theorem decUint_showNat {n max : Nat} {s : Text} (h : n ≤ max) (hs : NoHead isDigit s) :
    decUint max (showNat n ++ s) = .ok n s := by
  rw [decUint]
  by_cases h0 : n = 0
  · subst h0
    refine tryMap_ok (a := ['0']) ?_ (by rw [show readNat ['0'] = 0 from rfl, if_pos h])
    rw [showNat_zero, List.cons_append, List.nil_append,
      seqP_ok (opt_back (char_back (by decide : '0' ≠ '+'))), alt_back (seqP_back (sat_back (by decide)))]
    exact map_ok char_ok
  · obtain ⟨c, r, h1, h2, h3⟩ := showNat_pos (Nat.pos_of_ne_zero h0)
    have hr : readNat (c :: r) = n := by rw [← h1]; exact readNat_showNat n
    refine tryMap_ok (a := c :: r) ?_ (by rw [hr, if_pos h])
    rw [h1, List.cons_append,
      seqP_ok (opt_back (char_back (ne_of_isDigit (isDigit_of_isDigit19 h2) (by decide))))]
    apply alt_ok
    rw [seqP_ok (sat_ok h2)]
    exact map_ok (digit0_ok h3 hs)

/-- A written integer is read back, whatever non-digit follows. -/
theorem decInt_showInt {i min max : Int} {s : Text} (h : min ≤ i ∧ i ≤ max) (hs : NoHead isDigit s) :
    decInt min max (showInt i ++ s) = .ok i s := by
  rw [decInt]
  by_cases h0 : i = 0
  · subst h0
    refine tryMap_ok (a := (false, ['0'])) ?_ ?_
    · show alt _ _ ('0' :: s) = _
      rw [alt_back]
      · exact map_ok char_ok
      · rw [seqP_ok (map_ok (opt_back (by rw [alt_back (char_back (by decide))]; exact char_back (by decide))))]
        exact seqP_back (sat_back (by decide))
    · have : (readNat ['0'] : Int) = 0 := rfl
      simp only [this]
      simpa using h
  · obtain ⟨c, r, h1, h2, h3⟩ := showNat_pos (n := i.natAbs) (by omega)
    have hr : readNat (c :: r) = i.natAbs := by rw [← h1]; exact readNat_showNat _
    have hd := isDigit_of_isDigit19 h2
    rw [showInt]
    by_cases hn : i < 0
    · rw [if_pos hn]
      refine tryMap_ok (a := (true, c :: r)) ?_ ?_
      · apply alt_ok
        rw [List.cons_append, seqP_ok (map_ok (opt_ok (by rw [alt_back (char_back (by decide))]; exact char_ok))), h1,
          List.cons_append, seqP_ok (sat_ok h2)]
        exact map_ok (digit0_ok h3 hs)
      · have e : -((i.natAbs : Nat) : Int) = i := by omega
        simp only [hr, if_true, e]
        rw [if_pos h]
    · rw [if_neg hn]
      refine tryMap_ok (a := (false, c :: r)) ?_ ?_
      · apply alt_ok
        rw [h1, List.cons_append, seqP_ok (map_ok (opt_back (by
          rw [alt_back (char_back (ne_of_isDigit hd (by decide)))]
          exact char_back (ne_of_isDigit hd (by decide))))), seqP_ok (sat_ok h2)]
        exact map_ok (digit0_ok h3 hs)
      · have e : ((i.natAbs : Nat) : Int) = i := by omega
        simp only [hr, Bool.false_eq_true, if_false, e]
        rw [if_pos h]

theorem decInt_zero {min max : Int} {s : Text} (h : min ≤ 0 ∧ 0 ≤ max) : decInt min max ('0' :: s) = .ok 0 s := by
  rw [decInt]
  refine tryMap_ok (a := (false, ['0'])) ?_ ?_
  · rw [alt_back]
    · exact map_ok char_ok
    · rw [seqP_ok (map_ok (opt_back (by rw [alt_back (char_back (by decide))]; exact char_back (by decide))))]
      exact seqP_back (sat_back (by decide))
  · have : (readNat ['0'] : Int) = 0 := rfl
    simp only [this]
    simpa using h

end P
end RustSat
