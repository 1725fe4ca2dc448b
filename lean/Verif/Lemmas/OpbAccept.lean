import Verif.Lemmas.Opb2
import Verif.Lemmas.DimacsAccept3
/-
Accepted OPB texts are statements (C95).
-/
namespace RustSat.OpbSpec
open Text P Opb
open DimacsSpec (Sep White Digits IntText LinesOf linesOf_exists space0_inv space1_inv tryMap_inv char_inv digits_inv decInt_inv tag_inv space_iff noHead_dropWhile)
open Clustering (seqP_inv map_inv alt_inv opt_inv cutErr_inv sat_inv)

theorem digitChar_val {c : Char} (h : isDigit c = true) : digitChar (c.toNat - 48) = c := by
  have : 48 ≤ c.toNat ∧ c.toNat ≤ 57 := by simpa [isDigit] using h
  unfold digitChar
  rw [show 48 + (c.toNat - 48) = c.toNat by omega]
  exact Char.ofNat_toNat c

theorem digit_val {c : Char} (h : isDigit c = true) : c.toNat - 48 < 10 := by
  have : 48 ≤ c.toNat ∧ c.toNat ≤ 57 := by simpa [isDigit] using h
  omega

theorem Digits.snoc {p : Text} {c : Char} (h : Digits (p ++ [c])) : p = [] ∨ Digits p := by
  obtain ⟨x, r, e, h1, h2⟩ := h
  cases p with
  | nil => exact Or.inl rfl
  | cons y p =>
    injection e with e1 e2
    subst e1 e2
    exact Or.inr ⟨y, p, rfl, h1, fun z hz => h2 z (List.mem_append_left _ hz)⟩

theorem showDigits_read : ∀ (k : Nat) (d : Text), d.length = k → Digits d → 1 ≤ readNat d ∧ ∀ f, readNat d < f → showDigits f (readNat d) = d
  | 0, d, hk, h => by
    obtain ⟨c, r, e, _⟩ := h
    subst e; cases hk
  | k + 1, d, hk, h => by
    rcases List.eq_nil_or_concat d with e | ⟨p, c, e⟩
    · subst e; cases hk
    · have e : d = p ++ [c] := by simpa using e
      subst e
      have hc : isDigit c = true := by
        obtain ⟨x, r, e, h1, h2⟩ := h
        cases p with
        | nil => injection e with e1 e2; rw [e1]; exact isDigit_of_isDigit19 h1
        | cons y p => injection e with e1 e2; exact h2 c (by rw [← e2]; simp)
      rw [readNat_append]
      have hv := digit_val hc
      rcases Digits.snoc h with hp | hp
      · subst hp
        have hr : readNat [] = 0 := rfl
        rw [hr]
        obtain ⟨x, r, e, h1, _⟩ := h
        injection e with e1 e2
        subst e1
        have h19 : 49 ≤ c.toNat ∧ c.toNat ≤ 57 := by simpa [isDigit19] using h1
        refine ⟨by omega, fun f hf => ?_⟩
        cases f with
        | zero => omega
        | succ f =>
          rw [showDigits, if_pos (by omega)]
          simp only [Nat.zero_mul, Nat.zero_add, List.nil_append]
          rw [digitChar_val hc]
      · obtain ⟨i1, i2⟩ := showDigits_read k p (by simpa using hk) hp
        refine ⟨by omega, fun f hf => ?_⟩
        cases f with
        | zero => omega
        | succ f =>
          rw [showDigits, if_neg (by omega)]
          rw [show (readNat p * 10 + (c.toNat - 48)) / 10 = readNat p by omega,
            show (readNat p * 10 + (c.toNat - 48)) % 10 = c.toNat - 48 by omega, i2 f (by omega), digitChar_val hc]

theorem Digits.show {d : Text} (h : Digits d) : showNat (readNat d) = d ∧ 1 ≤ readNat d := by
  obtain ⟨h1, h2⟩ := showDigits_read _ d rfl h
  exact ⟨h2 _ (by omega), h1⟩

theorem coeff_inv {s r : Text} {i : Int} (h : coeff s = .ok i r) : InRange i ∧ ∃ n, NumText i n ∧ s = n ++ r := by
  obtain ⟨h1, h2⟩ := decInt_inv h
  refine ⟨h1, ?_⟩
  rcases h2 with ⟨t, ht, e, _⟩ | ⟨rfl, e⟩
  · refine ⟨t, ?_, e⟩
    cases ht with
    | @plain d hd =>
      obtain ⟨e1, e2⟩ := Digits.show hd
      have : showInt (readNat t : Int) = t := by
        unfold showInt
        rw [if_neg (by omega)]
        simpa using e1
      conv => rhs; rw [← this]
      exact .plain
    | @plus d hd =>
      obtain ⟨e1, e2⟩ := Digits.show hd
      have : showInt (readNat d : Int) = d := by
        unfold showInt
        rw [if_neg (by omega)]
        simpa using e1
      conv => rhs; rw [← this]
      exact .plus (by omega)
    | @minus d hd =>
      obtain ⟨e1, e2⟩ := Digits.show hd
      have : showInt (-(readNat d : Int)) = '-' :: d := by
        unfold showInt
        rw [if_pos (by omega)]
        simpa using e1
      conv => rhs; rw [← this]
      exact .plain
  · exact ⟨showInt 0, .plain, e⟩

theorem var_inv {opts : Options} {s r : Text} {v : Nat} (h : var opts s = .ok v r) :
    v ≤ 2147483647 ∧ v + opts.firstVarIdx ≤ 4294967295 ∧ s = 'x' :: (showNat (v + opts.firstVarIdx) ++ r) := by
  unfold var at h
  cases h1 : varIdx s with
  | back => rw [h1] at h; cases h
  | cut => rw [h1] at h; cases h
  | panic => rw [h1] at h; cases h
  | ok idx r' =>
    rw [h1] at h
    simp only at h
    by_cases h2 : idx < opts.firstVarIdx
    · rw [if_pos h2] at h; cases h
    · rw [if_neg h2] at h
      unfold Var.new at h
      by_cases h3 : idx - opts.firstVarIdx ≤ maxVarIdx
      · rw [if_pos h3] at h
        cases h
        obtain ⟨ds, h4, h5⟩ := tryMap_inv h1
        obtain ⟨c, r1, h6, h7⟩ := seqP_inv h4
        have e1 := char_inv h6
        have hm : readNat ds ≤ u32Max ∧ readNat ds = idx := by
          by_cases hu : readNat ds ≤ u32Max
          · rw [if_pos hu] at h5; cases h5; exact ⟨hu, rfl⟩
          · rw [if_neg hu] at h5; cases h5
        have hs : r1 = showNat idx ++ r := by
          rcases alt_inv h7 with h8 | h8
          · obtain ⟨g1, g2, _⟩ := digits_inv h8
            rw [g2, ← hm.2, (Digits.show g1).1]
          · obtain ⟨c', g1, rfl⟩ := map_inv h8
            rw [char_inv g1, ← hm.2]
            rfl
        have e3 : idx - opts.firstVarIdx + opts.firstVarIdx = idx := by omega
        rw [e3]
        refine ⟨h3, ?_, by rw [e1, hs]⟩
        have := hm.1
        rw [hm.2] at this
        exact this
      · rw [if_neg h3] at h; cases h

theorem literal_inv {opts : Options} {s r : Text} {l : Lit} (h : literal opts s = .ok l r) :
    ∃ t, LitText opts.firstVarIdx l t ∧ s = t ++ r := by
  obtain ⟨neg, r1, h1, h2⟩ := seqP_inv h
  obtain ⟨v, h3, rfl⟩ := map_inv h2
  obtain ⟨v1, v2, e⟩ := var_inv h3
  rcases opt_inv h1 with ⟨c, rfl, h4⟩ | ⟨rfl, e2⟩
  · rcases alt_inv h4 with h5 | h5
    · exact ⟨_, .tilde v1 v2, by rw [char_inv h5, e]; rfl⟩
    · exact ⟨_, .minus v1 v2, by rw [char_inv h5, e]; rfl⟩
  · exact ⟨_, .pos v1 v2, by rw [← e2, e]; rfl⟩

theorem term_inv {opts : Options} {s r : Text} {p : Lit × Int} (h : term opts s = .ok p r) :
    InRange p.2 ∧ ∃ n w t, NumText p.2 n ∧ Sep w ∧ LitText opts.firstVarIdx p.1 t ∧ s = n ++ (w ++ (t ++ r)) := by
  obtain ⟨c, r1, h1, h2⟩ := seqP_inv h
  obtain ⟨_, r2, h3, h4⟩ := seqP_inv h2
  obtain ⟨l, h5, rfl⟩ := map_inv h4
  obtain ⟨g1, n, hn, e1⟩ := coeff_inv h1
  obtain ⟨w, hw, e2, _⟩ := space1_inv h3
  obtain ⟨t, ht, e3⟩ := literal_inv h5
  exact ⟨g1, n, w, t, hn, hw, ht, by rw [e1, e2, e3]⟩

/-- The terms after the first, each with the space before it. -/
inductive TermTail (first : Nat) : List (Lit × Int) → Text → Prop where
  | nil : TermTail first [] []
  | cons {s l w n s' t ps u} : Sep s → InRange w → NumText w n → Sep s' → LitText first l t → TermTail first ps u →
      TermTail first ((l, w) :: ps) (s ++ (n ++ (s' ++ (t ++ u))))

theorem sumLoop_inv {opts : Options} : ∀ (f : Nat) {s r : Text} {ps : List (Lit × Int)}, sepLoop (term opts) space1 f s = .ok ps r →
    ∃ u, TermTail opts.firstVarIdx ps u ∧ s = u ++ r
  | 0, s, r, ps, h => by cases h; exact ⟨[], .nil, rfl⟩
  | f + 1, s, r, ps, h => by
    unfold sepLoop at h
    cases h1 : space1 s with
    | back => rw [h1] at h; cases h; exact ⟨[], .nil, rfl⟩
    | cut => rw [h1] at h; cases h
    | panic => rw [h1] at h; cases h
    | ok x r1 =>
      rw [h1] at h
      simp only at h
      cases h2 : term opts r1 with
      | back => rw [h2] at h; cases h; exact ⟨[], .nil, rfl⟩
      | cut => rw [h2] at h; cases h
      | panic => rw [h2] at h; cases h
      | ok p r2 =>
        rw [h2] at h
        simp only at h
        cases h3 : sepLoop (term opts) space1 f r2 with
        | back => rw [h3] at h; cases h
        | cut => rw [h3] at h; cases h
        | panic => rw [h3] at h; cases h
        | ok ps' r3 =>
          rw [h3] at h
          cases h
          obtain ⟨u, hu, e3⟩ := sumLoop_inv f h3
          obtain ⟨w, hw, e1, _⟩ := space1_inv h1
          obtain ⟨g1, n, w', t, hn, hw', ht, e2⟩ := term_inv h2
          exact ⟨_, .cons hw g1 hn hw' ht hu, by rw [e1, e2, e3]; simp⟩

theorem TermTail.sum {first : Nat} {ps : List (Lit × Int)} {u : Text} (h : TermTail first ps u) :
    ∀ {l w n s t}, InRange w → NumText w n → Sep s → LitText first l t → SumText first ((l, w) :: ps) (n ++ (s ++ (t ++ u))) := by
  induction h with
  | nil => intro l w n s t h1 h2 h3 h4; rw [List.append_nil]; exact .one h1 h2 h3 h4
  | cons g1 g2 g3 g4 g5 _ ih => intro l w n s t h1 h2 h3 h4; exact .cons h1 h2 h3 h4 g1 (ih g2 g3 g4 g5)

theorem termSum_inv {opts : Options} {s r : Text} {ps : List (Lit × Int)} (h : termSum opts s = .ok ps r) :
    ∃ t, SumText opts.firstVarIdx ps t ∧ s = t ++ r := by
  unfold termSum separated0 at h
  cases h1 : term opts s with
  | back => rw [h1] at h; cases h; exact ⟨[], .nil, rfl⟩
  | cut => rw [h1] at h; cases h
  | panic => rw [h1] at h; cases h
  | ok p r1 =>
    rw [h1] at h
    simp only at h
    cases h2 : sepLoop (term opts) space1 s.length r1 with
    | back => rw [h2] at h; cases h
    | cut => rw [h2] at h; cases h
    | panic => rw [h2] at h; cases h
    | ok ps' r2 =>
      rw [h2] at h
      cases h
      obtain ⟨u, hu, e2⟩ := sumLoop_inv _ h2
      obtain ⟨g1, n, w', t, hn, hw', ht, e1⟩ := term_inv h1
      exact ⟨_, hu.sum g1 hn hw' ht, by rw [e1, e2]; simp⟩

theorem operator_inv {s r : Text} {op : Op} (h : operator s = .ok op r) : s = opText op ++ r := by
  rcases alt_inv h with h | h
  · obtain ⟨_, h1, rfl⟩ := map_inv h; exact tag_inv h1
  rcases alt_inv h with h | h
  · obtain ⟨_, h1, rfl⟩ := map_inv h; exact tag_inv h1
  rcases alt_inv h with h | h
  · obtain ⟨_, h1, rfl⟩ := map_inv h; exact tag_inv h1
  rcases alt_inv h with h | h
  · obtain ⟨_, h1, rfl⟩ := map_inv h; exact tag_inv h1
  · obtain ⟨_, h1, rfl⟩ := map_inv h; exact tag_inv h1

/-- A line feed is the last character only. -/
def NlLast (s : Text) : Prop := ∀ p r, s = p ++ '\n' :: r → r = []

theorem NlLast.suffix {p s : Text} (h : NlLast (p ++ s)) : NlLast s := fun q r e => h (p ++ q) r (by rw [e]; simp)

theorem lineEnd_inv {s r : Text} {u : Unit} (h : (alt eof (seqP lineEnding fun _ => space0)) s = .ok u r) (hs : NlLast s) :
    r = [] ∧ Eol s := by
  rcases alt_inv h with h1 | h1
  · unfold eof at h1
    cases s with
    | nil => cases h1; exact ⟨rfl, Or.inl rfl⟩
    | cons c s => cases h1
  · obtain ⟨_, r1, h2, h3⟩ := seqP_inv h1
    have hr : r1 = [] := by
      rcases alt_inv h2 with h4 | h4
      · have e := tag_inv h4
        exact hs [] r1 e
      · have e := tag_inv h4
        exact hs ['\r'] r1 e
    subst hr
    cases h3
    refine ⟨rfl, ?_⟩
    rcases alt_inv h2 with h4 | h4
    · have e := tag_inv h4
      exact Or.inr (Or.inl e)
    · have e := tag_inv h4
      exact Or.inr (Or.inr e)

theorem spaces_of {w : Text} (h : ∀ c ∈ w, isSpace c = true) : Spaces w := fun c hc => space_iff.1 (h c hc)

theorem ending_inv {s r : Text} {u : Unit} (h : ending s = .ok u r) (hs : NlLast s) :
    ∃ w, Spaces w ∧ ((r = [] ∧ ∃ e, Eol e ∧ s = w ++ e) ∨
      ∃ w', Spaces w' ∧ ((r = [] ∧ ∃ e, Eol e ∧ s = w ++ ';' :: (w' ++ e)) ∨
        (r ≠ [] ∧ NoHead isSpace r ∧ s = w ++ ';' :: (w' ++ r)))) := by
  unfold ending at h
  obtain ⟨_, r1, h1, g1⟩ := seqP_inv h
  obtain ⟨semi, r2, h2, g2⟩ := seqP_inv g1
  obtain ⟨_, r3, h3, g3⟩ := seqP_inv g2
  obtain ⟨eol, r4, h4, g4⟩ := seqP_inv g3
  clear h g1 g2 g3
  rename' g4 => h
  obtain ⟨w, hw, e1, n1⟩ := space0_inv h1
  obtain ⟨w', hw', e3, n3⟩ := space0_inv h3
  subst e1
  refine ⟨w, spaces_of hw, ?_⟩
  by_cases hx : (semi.isSome || eol.isSome) = true
  · rw [if_pos hx] at h
    cases h
    rcases opt_inv h2 with ⟨c, rfl, g⟩ | ⟨rfl, e2⟩
    · right
      have e2 := char_inv g
      subst e2 e3
      refine ⟨w', spaces_of hw', ?_⟩
      rcases opt_inv h4 with ⟨c', rfl, g'⟩ | ⟨rfl, e4⟩
      · obtain ⟨a, b⟩ := lineEnd_inv g' (by
          have := hs.suffix
          rw [← List.singleton_append] at this
          exact this.suffix.suffix)
        exact Or.inl ⟨a, r3, b, rfl⟩
      · subst e4
        by_cases hr : r = []
        · subst hr; exact Or.inl ⟨rfl, [], Or.inl rfl, rfl⟩
        · exact Or.inr ⟨hr, n3, rfl⟩
    · left
      subst e2
      rcases opt_inv h4 with ⟨c', rfl, g'⟩ | ⟨rfl, e4⟩
      · have hw0 : w' = [] := by
          cases w' with
          | nil => rfl
          | cons c w' =>
            have := n1 c (w' ++ r3) e3
            rw [hw' c List.mem_cons_self] at this
            cases this
        subst hw0
        rw [List.nil_append] at e3
        rw [← e3] at g'
        obtain ⟨a, b⟩ := lineEnd_inv g' hs.suffix
        exact ⟨a, _, b, rfl⟩
      · cases hx
  · rw [if_neg hx] at h; cases h

theorem Spaces.newline {s : Text} (h : Spaces s) : '\n' ∉ s := fun hc => by
  rcases h _ hc with e | e <;> exact absurd e (by decide)

theorem NumText.newline {i : Int} {n : Text} (h : NumText i n) : '\n' ∉ n := by
  cases h with
  | plain => exact newline_showInt i
  | plus _ => simp [newline_showInt]

theorem LitText.newline {first : Nat} {l : Lit} {t : Text} (h : LitText first l t) : '\n' ∉ t := by
  cases h <;> simp [newline_showNat]

theorem SumText.newline {first : Nat} {ps : List (Lit × Int)} {t : Text} (h : SumText first ps t) : '\n' ∉ t := by
  induction h with
  | nil => simp
  | one _ h1 h2 h3 => simp [h1.newline, Spaces.newline h2.2, h3.newline]
  | cons _ h1 h2 h3 h4 _ ih => simp [h1.newline, Spaces.newline h2.2, h3.newline, Spaces.newline h4.2, ih]

theorem StmtText.newline {first : Nat} {st : Stmt} {t : Text} (h : StmtText first st t) : '\n' ∉ t := by
  cases h with
  | @constr sum op b t s s' n h1 h2 _ h3 _ h4 =>
    have : '\n' ∉ opText op := by cases op <;> decide
    simp [h1.newline, h2.newline, h3.newline, h4.newline, this]
  | min h1 h2 => simp [h1.newline, h2.newline]
  | max h1 h2 => simp [h1.newline, h2.newline]

theorem LineText.newline {first : Nat} {sts : List Stmt} {t : Text} (h : LineText first sts t) : '\n' ∉ t := by
  induction h with
  | comment h1 _ => simp [h1]
  | last h1 h2 => simp [h1.newline, h2.newline]
  | semi h1 h2 h3 => simp [h1.newline, h2.newline, h3.newline]
  | cons h1 h2 h3 _ ih => simp [h1.newline, h2.newline, h3.newline, ih]

/-- What a statement followed by the end of a line or a further statement is read as. -/
inductive DataRead (first : Nat) : Text → Data → Text → Prop where
  | comment {t e} : '\n' ∉ t → '\r' ∉ t → Eol e → DataRead first ('*' :: (t ++ e)) (.cmt ('*' :: (t ++ e))) []
  | bare {st d t w e} : StmtText first st t → parsed st = some d → Spaces w → Eol e → DataRead first (t ++ (w ++ e)) d []
  | semi {st d t w w' e} : StmtText first st t → parsed st = some d → Spaces w → Spaces w' → Eol e →
      DataRead first (t ++ (w ++ ';' :: (w' ++ e))) d []
  | next {st d t w w' r} : StmtText first st t → parsed st = some d → Spaces w → Spaces w' → r ≠ [] → NoHead isSpace r →
      DataRead first (t ++ (w ++ ';' :: (w' ++ r))) d r

theorem DataRead.of_ending {first : Nat} {st : Stmt} {d : Data} {t s r : Text} {u : Unit} (ht : StmtText first st t)
    (hd : parsed st = some d) (hs : NlLast (t ++ s)) (h : ending s = .ok u r) : DataRead first (t ++ s) d r := by
  obtain ⟨w, hw, h | ⟨w', hw', h | h⟩⟩ := ending_inv h hs.suffix
  · obtain ⟨rfl, e, he, rfl⟩ := h
    exact .bare ht hd hw he
  · obtain ⟨rfl, e, he, rfl⟩ := h
    exact .semi ht hd hw hw' he
  · obtain ⟨hr, hn, rfl⟩ := h
    exact .next ht hd hw hw' hr hn

theorem orPanic_inv {α : Type} {o : Option α} {s r : Text} {a : α} (h : orPanic o s = .ok a r) : o = some a ∧ r = s := by
  cases o with
  | none => cases h
  | some b => cases h; exact ⟨rfl, rfl⟩

theorem constraint_inv {opts : Options} {s r : Text} {c : PbConstraint} (h : constraint opts s = .ok c r) (hs : NlLast s)
    (hn : NoHead isSpace s) : DataRead opts.firstVarIdx s (.constr c) r := by
  obtain ⟨sum, r1, h1, h⟩ := seqP_inv h
  obtain ⟨_, r2, h2, h⟩ := seqP_inv h
  obtain ⟨op, r3, h3, h⟩ := seqP_inv h
  obtain ⟨_, r4, h4, h⟩ := seqP_inv h
  obtain ⟨b, r5, h5, h⟩ := seqP_inv h
  obtain ⟨_, r6, h6, h⟩ := seqP_inv h
  obtain ⟨hc, rfl⟩ := orPanic_inv h
  obtain ⟨t, ht, e1⟩ := termSum_inv h1
  obtain ⟨w, hw, e2, _⟩ := space0_inv h2
  have e3 := operator_inv h3
  obtain ⟨w', hw', e4, _⟩ := space0_inv h4
  obtain ⟨hb, n, hnb, e5⟩ := coeff_inv (cutErr_inv h5)
  have e : s = (t ++ (w ++ (opText op ++ (w' ++ n)))) ++ r5 := by rw [e1, e2, e3, e4, e5]; simp
  rw [e] at hs ⊢
  refine DataRead.of_ending (st := .constr sum op b) (.constr ht (spaces_of hw) ?_ (spaces_of hw') hb hnb) (by rw [parsed, hc]; rfl) hs h6
  intro h0
  subst h0
  cases ht
  cases w with
  | nil => rfl
  | cons x w =>
    exfalso
    have := hn x (w ++ r2) (by rw [e1, e2]; rfl)
    rw [hw x List.mem_cons_self] at this
    cases this

theorem objective_inv {opts : Options} {s r : Text} {o : Obj} (h : objective opts s = .ok o r) (hs : NlLast s) :
    DataRead opts.firstVarIdx s (.obj o) r := by
  obtain ⟨se, r1, h1, h⟩ := seqP_inv h
  obtain ⟨_, r2, h2, h⟩ := seqP_inv h
  obtain ⟨sum, r3, h3, h⟩ := seqP_inv h
  obtain ⟨acc, r4, h4, h⟩ := seqP_inv h
  obtain ⟨_, r5, h5, h⟩ := seqP_inv h
  cases h
  obtain ⟨ha, rfl⟩ := orPanic_inv h4
  obtain ⟨w, hw, e2, _⟩ := space0_inv h2
  obtain ⟨t, ht, e3⟩ := termSum_inv (cutErr_inv h3)
  have h6 := cutErr_inv h5
  have hp : parsed (.obj se sum) = some (.obj ⟨se, acc.1, acc.2⟩) := by rw [parsed, ha]; rfl
  rcases alt_inv h1 with g | g
  · obtain ⟨_, g1, rfl⟩ := map_inv g
    have e1 := tag_inv g1
    have e : s = ("min:".toList ++ (w ++ t)) ++ r4 := by rw [e1, e2, e3]; simp
    rw [e] at hs ⊢
    exact DataRead.of_ending (.min (spaces_of hw) ht) hp hs h6
  · obtain ⟨_, g1, rfl⟩ := map_inv g
    have e1 := tag_inv g1
    have e : s = ("max:".toList ++ (w ++ t)) ++ r4 := by rw [e1, e2, e3]; simp
    rw [e] at hs ⊢
    exact DataRead.of_ending (.max (spaces_of hw) ht) hp hs h6

theorem tillLineEnding_inv {s r a : Text} (h : tillLineEnding s = .ok a r) :
    s = a ++ r ∧ '\n' ∉ a ∧ '\r' ∉ a ∧ (r = [] ∨ (∃ r', r = '\n' :: r') ∨ ∃ r', r = '\r' :: '\n' :: r') := by
  unfold tillLineEnding at h
  simp only at h
  have hsplit := (List.takeWhile_append_dropWhile (p := fun c => !(c == '\r' || c == '\n')) (l := s)).symm
  have hall : ∀ c ∈ s.takeWhile fun c => !(c == '\r' || c == '\n'), (!(c == '\r' || c == '\n')) = true := fun c hc => Clustering.takeWhile_all _ c hc
  have hno : '\n' ∉ (s.takeWhile fun c => !(c == '\r' || c == '\n')) ∧ '\r' ∉ (s.takeWhile fun c => !(c == '\r' || c == '\n')) :=
    ⟨fun hc => absurd (hall _ hc) (by decide), fun hc => absurd (hall _ hc) (by decide)⟩
  have hhd := noHead_dropWhile (fun c => !(c == '\r' || c == '\n')) s
  generalize s.dropWhile (fun c => !(c == '\r' || c == '\n')) = q at h hsplit hhd
  split at h
  · cases h; exact ⟨hsplit, hno.1, hno.2, Or.inr (Or.inr ⟨_, rfl⟩)⟩
  · cases h
  · rename_i hn1 hn2
    cases h
    refine ⟨hsplit, hno.1, hno.2, ?_⟩
    cases r with
    | nil => exact Or.inl rfl
    | cons x q =>
      have hx := hhd x q rfl
      have : x = '\r' ∨ x = '\n' := by
        by_cases hr : x = '\r'
        · exact Or.inl hr
        · right; simp [hr] at hx; exact hx
      rcases this with rfl | rfl
      · exact absurd rfl (hn2 q)
      · exact Or.inr (Or.inl ⟨q, rfl⟩)

theorem comment_inv' {first : Nat} {s r t : Text} (h : comment s = .ok t r) (hs : NlLast s) : DataRead first s (.cmt t) r := by
  unfold comment Dimacs.taken at h
  cases h1 : (seqP (char '*') fun _ => seqP tillLineEnding fun _ => opt lineEnding) s with
  | back => rw [h1] at h; cases h
  | cut => rw [h1] at h; cases h
  | panic => rw [h1] at h; cases h
  | ok u r1 =>
    rw [h1] at h
    cases h
    obtain ⟨_, r2, h2, h3⟩ := seqP_inv h1
    obtain ⟨a, r3, h4, h5⟩ := seqP_inv h3
    have e1 := char_inv h2
    obtain ⟨e2, n1, n2, hr⟩ := tillLineEnding_inv h4
    have key : r = [] ∧ Eol r3 := by
      rcases hr with rfl | ⟨r', rfl⟩ | ⟨r', rfl⟩
      · rcases opt_inv h5 with ⟨c, _, g⟩ | ⟨_, g⟩
        · exfalso; exact absurd (DimacsSpec.lineEnding_inv g) (by simp)
        · exact ⟨g, Or.inl rfl⟩
      · have : r' = [] := hs ('*' :: a) r' (by rw [e1, e2]; rfl)
        subst this
        cases h5
        exact ⟨rfl, Or.inr (Or.inl rfl)⟩
      · have : r' = [] := hs ('*' :: (a ++ ['\r'])) r' (by rw [e1, e2]; simp)
        subst this
        cases h5
        exact ⟨rfl, Or.inr (Or.inr rfl)⟩
    obtain ⟨rfl, he⟩ := key
    have e : s = '*' :: (a ++ r3) := by rw [e1, e2]
    rw [List.length_nil, Nat.sub_zero, List.take_length, e]
    exact .comment n1 n2 he

theorem data_inv {opts : Options} {s r : Text} {d : Data} (h : data opts s = .ok d r) (hs : NlLast s) (hn : NoHead isSpace s) :
    DataRead opts.firstVarIdx s d r := by
  obtain ⟨_, r1, h1, h⟩ := seqP_inv h
  obtain ⟨w, hw, e1, n1⟩ := space0_inv h1
  have hw0 : w = [] := by
    cases w with
    | nil => rfl
    | cons c w =>
      have := hn c (w ++ r1) e1
      rw [hw c List.mem_cons_self] at this
      cases this
  subst hw0
  rw [List.nil_append] at e1
  subst e1
  rcases alt_inv h with h | h
  · obtain ⟨t, h2, rfl⟩ := map_inv h; exact comment_inv' h2 hs
  rcases alt_inv h with h | h
  · obtain ⟨t, h2, rfl⟩ := map_inv h; exact constraint_inv h2 hs hn
  · obtain ⟨t, h2, rfl⟩ := map_inv h; exact objective_inv h2 hs

theorem DataRead.shorter {first : Nat} {s r : Text} {d : Data} (h : DataRead first s d r) : r.length < s.length ∧ ∃ p, s = p ++ r := by
  cases h with
  | comment _ _ _ => exact ⟨by simp, _, (List.append_nil _).symm⟩
  | bare h _ _ _ =>
    obtain ⟨c, q, e, _⟩ := h.start
    exact ⟨by rw [e]; simp, _, (List.append_nil _).symm⟩
  | semi h _ _ _ _ => exact ⟨by simp, _, (List.append_nil _).symm⟩
  | @next st d t w w' r h _ _ _ _ _ =>
    refine ⟨by simp; omega, t ++ (w ++ ';' :: w'), by simp⟩

theorem lineItems_inv {opts : Options} : ∀ (f : Nat) {s : Text} {ds : List Data} {b : Bool}, s.length ≤ f → NlLast s → NoHead isSpace s →
    s ≠ [] → lineItems opts f s = (ds.map .ok, b) → b = true ∧ ∃ sts t e, LineText opts.firstVarIdx sts t ∧ Eol e ∧ s = t ++ e ∧ Reads sts ds
  | 0, s, ds, b, hf, hs, hn, hne, h => absurd (List.length_eq_zero_iff.1 (Nat.le_zero.1 hf)) hne
  | f + 1, s, ds, b, hf, hs, hn, hne, h => by
    have hstep : ∀ d r, data opts s = .ok d r → lineItems opts (f + 1) s = ((.ok d) :: (lineItems opts f r).1, (lineItems opts f r).2) :=
      fun d r hd => lineItems_step hne hd
    cases s with
    | nil => exact absurd rfl hne
    | cons c s =>
      cases hd : data opts (c :: s) with
      | back =>
        rw [lineItems, hd] at h
        · injection h with h _
          cases ds <;> cases h
        · exact fun e => nomatch e
      | cut =>
        rw [lineItems, hd] at h
        · injection h with h _
          cases ds <;> cases h
        · exact fun e => nomatch e
      | panic =>
        rw [lineItems, hd] at h
        · injection h with h _
          cases ds <;> cases h
        · exact fun e => nomatch e
      | ok d r =>
        rw [hstep d r hd] at h
        injection h with h1 h2
        cases ds with
        | nil => cases h1
        | cons d' ds =>
          injection h1 with h1 h3
          injection h1 with h1
          subst h1
          have hr := data_inv hd hs hn
          obtain ⟨hlt, p, hp⟩ := hr.shorter
          have hnil : r = [] → ds = [] ∧ b = true := by
            intro e
            subst e
            rw [lineItems_nil] at h3 h2
            refine ⟨?_, h2.symm⟩
            cases ds with
            | nil => rfl
            | cons _ _ => cases h3
          generalize hS : c :: s = S at hr hp
          cases hr with
          | comment g1 g2 g3 =>
            obtain ⟨rfl, rfl⟩ := hnil rfl
            exact ⟨rfl, _, _, _, .comment g1 g2, g3, rfl, .cmt .nil⟩
          | bare g1 g2 g3 g4 =>
            obtain ⟨rfl, rfl⟩ := hnil rfl
            exact ⟨rfl, _, _, _, .last g1 g3, g4, by simp, .cons g2 .nil⟩
          | semi g1 g2 g3 g4 g5 =>
            obtain ⟨rfl, rfl⟩ := hnil rfl
            exact ⟨rfl, _, _, _, .semi g1 g3 g4, g5, by simp, .cons g2 .nil⟩
          | next g1 g2 g3 g4 g5 g6 =>
            have hs' : NlLast r := by rw [hS, hp] at hs; exact hs.suffix
            obtain ⟨hb, sts, t', e, k1, k2, k3, k4⟩ := lineItems_inv f (s := r) (ds := ds) (b := b)
              (by simp only [List.length_cons] at hlt hf; omega) hs' g6 g5 (Prod.ext h3 h2)
            refine ⟨hb, _, _, e, .cons g1 g3 g4 k1, k2, ?_, .cons g2 k4⟩
            rw [k3]; simp

theorem linesItems_inv {opts : Options} {l : Text} {ls : List Text} {ds : List Data} (hl : NlLast l)
    (h : linesItems opts (l :: ls) = ds.map .ok) :
    (White l ∧ linesItems opts ls = ds.map .ok) ∨
    ∃ w sts t e ds1 ds2, ds = ds1 ++ ds2 ∧ White w ∧ l = w ++ (t ++ e) ∧ LineText opts.firstVarIdx sts t ∧ Eol e ∧ Reads sts ds1 ∧
      linesItems opts ls = ds2.map .ok := by
  have hsplit : l = l.takeWhile isWs ++ trimStart l := (List.takeWhile_append_dropWhile (p := isWs)).symm
  have hw : White (l.takeWhile isWs) := fun c hc => Clustering.takeWhile_all _ c hc
  rw [linesItems] at h
  by_cases h0 : trimStart l = []
  · left
    rw [h0, List.append_nil] at hsplit
    rw [h0, lineItems_nil] at h
    exact ⟨by rw [hsplit]; exact hw, h⟩
  · right
    have hn : NoHead isSpace (trimStart l) := fun c r e => by
      have := noHead_dropWhile isWs l c r e
      cases hx : isSpace c with
      | false => rfl
      | true => rw [isWs_of_isSpace hx] at this; cases this
    have hnl : NlLast (trimStart l) := by rw [hsplit] at hl; exact hl.suffix
    have hlen : (trimStart l).length ≤ l.length := by
      have := congrArg List.length hsplit
      rw [List.length_append] at this
      omega
    cases hli : lineItems opts l.length (trimStart l) with
    | mk L b =>
      rw [hli] at h
      have hL : ∃ ds1 ds2, ds = ds1 ++ ds2 ∧ L = ds1.map .ok ∧ (b = true → linesItems opts ls = ds2.map .ok) := by
        cases b with
        | true =>
          rw [if_pos rfl] at h
          obtain ⟨a1, a2, e, e1, e2⟩ := List.map_eq_append_iff.1 h.symm
          exact ⟨a1, a2, e, e1.symm, fun _ => e2.symm⟩
        | false =>
          rw [if_neg (by simp)] at h
          exact ⟨ds, [], by simp, h, fun hb => by cases hb⟩
      obtain ⟨ds1, ds2, e, e1, e2⟩ := hL
      subst e1
      obtain ⟨hb, sts, t, en, k1, k2, k3, k4⟩ := lineItems_inv l.length hlen hnl hn h0 hli
      exact ⟨l.takeWhile isWs, sts, t, en, ds1, ds2, e, hw, by rw [← k3]; exact hsplit, k1, k2, k4, e2 hb⟩

theorem nlLast_none {l : Text} (h : '\n' ∉ l) : NlLast l := fun p r e => absurd (by rw [e]; simp) h

theorem nlLast_line {l : Text} (h : '\n' ∉ l) : NlLast (l ++ ['\n']) := by
  intro p r e
  rcases List.append_eq_append_iff.1 e with ⟨a, e1, e2⟩ | ⟨a, e1, e2⟩
  · cases a with
    | nil => injection e2 with _ e3; exact e3.symm
    | cons x a => 
      have : a = [] ∧ False := by
        have := congrArg List.length e2
        simp at this
      exact this.2.elim
  · cases a with
    | nil => injection e2 with _ e3
    | cons x a => 
      injection e2 with e3 e4
      exact absurd (by rw [e1, ← e3]; simp) h

theorem items_inv {opts : Options} {t : Text} {ds : List Data} (h : items opts t = ds.map .ok) :
    ∃ sts, FileText opts.firstVarIdx sts t ∧ Reads sts ds := by
  unfold items at h
  obtain ⟨L, hL⟩ := linesOf_exists t
  induction hL generalizing ds with
  | nil =>
    cases ds with
    | nil => exact ⟨[], .nil, .nil⟩
    | cons d ds => cases h
  | @last l h1 h2 =>
    rw [readLines_last h2 h1] at h
    rcases linesItems_inv (nlLast_none h2) h with ⟨hw, h3⟩ | ⟨w, sts, u, e, ds1, ds2, rfl, hw, e1, k1, k2, k3, h3⟩
    · cases ds with
      | nil => exact ⟨[], .lastBlank hw h2, .nil⟩
      | cons d ds => cases h3
    · have : ds2 = [] := by cases ds2 with | nil => rfl | cons _ _ => cases h3
      subst this
      have he : e = [] := by
        rcases k2 with rfl | rfl | rfl
        · rfl
        · exact absurd (by rw [e1]; simp) h2
        · exact absurd (by rw [e1]; simp) h2
      subst he
      rw [List.append_nil] at e1
      rw [e1] at h2 ⊢
      exact ⟨sts, .lastLine hw h2 k1, by rw [List.append_nil]; exact k3⟩
  | @line l L t h1 _ ih =>
    rw [readLines_line h1] at h
    rcases linesItems_inv (nlLast_line h1) h with ⟨hw, h3⟩ | ⟨w, sts, u, e, ds1, ds2, rfl, hw, e1, k1, k2, k3, h3⟩
    · obtain ⟨sts, g1, g2⟩ := ih h3
      exact ⟨sts, .blank (fun c hc => hw c (List.mem_append_left _ hc)) h1 g1, g2⟩
    · obtain ⟨sts', g1, g2⟩ := ih h3
      rcases k2 with rfl | rfl | rfl
      · exfalso
        rw [List.append_nil] at e1
        rcases List.mem_append.1 (show '\n' ∈ w ++ u by rw [← e1]; simp) with hx | hx
        · obtain ⟨x, q, e3, _, _, hxw⟩ := k1.start
          obtain ⟨q', z, e4⟩ : ∃ q' z, u = q' ++ [z] := by
            rcases List.eq_nil_or_concat u with e | ⟨q', z, e⟩
            · rw [e] at e3; cases e3
            · exact ⟨q', z, by simpa using e⟩
          rw [e4, ← List.append_assoc] at e1
          have := List.append_inj' e1 rfl
          exact h1 (by rw [this.1]; exact List.mem_append_left _ hx)
        · exact k1.newline hx
      · rw [show w ++ (u ++ ['\n']) = (w ++ u) ++ ['\n'] by simp] at e1
        have e2 := List.append_cancel_right e1
        subst e2
        refine ⟨sts ++ sts', ?_, k3.append g2⟩
        rw [List.append_assoc]
        exact .line hw h1 k1 g1
      · rw [show w ++ (u ++ ['\r', '\n']) = (w ++ u ++ ['\r']) ++ ['\n'] by simp] at e1
        have e2 := List.append_cancel_right e1
        subst e2
        refine ⟨sts ++ sts', ?_, k3.append g2⟩
        rw [show w ++ u ++ ['\r'] ++ '\n' :: t = w ++ (u ++ '\r' :: '\n' :: t) by simp]
        exact .lineCr hw (fun hh => h1 (List.mem_append_left _ hh)) k1 g1

end RustSat.OpbSpec
