import Verif.Lemmas.Dimacs
import Verif.Spec.Opb

/-
The OPB parser reads the texts described in `Spec.Opb`.
-/

namespace RustSat.OpbSpec
open Text P Opb DimacsSpec

theorem Spaces.space {s : Text} (h : Spaces s) : ∀ c ∈ s, isSpace c = true := by
  intro c hc
  rcases h c hc with e | e <;> subst e <;> decide

theorem Sep.spaces {s : Text} (h : Sep s) : Spaces s := h.2

theorem spaces_nil : Spaces [] := fun c hc => by cases hc

/-- Characters a term can start with. -/
def startTerm (c : Char) : Bool := isDigit c || c == '+' || c == '-'

theorem startTerm_space {c : Char} (h : isSpace c = true) : startTerm c = false := by
  simp only [isSpace, Bool.or_eq_true, beq_iff_eq] at h
  rcases h with h | h <;> subst h <;> decide

theorem NoHead.mono {f g : Char → Bool} {s : Text} (h : NoHead f s) (hfg : ∀ c, f c = false → g c = false) : NoHead g s :=
  fun c r e => hfg c (h c r e)

theorem NoHead.append {f : Char → Bool} {s t : Text} (hs : ∀ c ∈ s, f c = false) (ht : NoHead f t) : NoHead f (s ++ t) := by
  cases s with
  | nil => exact ht
  | cons c r => exact noHead_cons (hs c List.mem_cons_self)

theorem startTerm_digit {c : Char} (h : startTerm c = false) : isDigit c = false := by
  simp only [startTerm, Bool.or_eq_false_iff] at h
  exact h.1.1

theorem startTerm_plus {c : Char} (h : startTerm c = false) : c ≠ '+' := by
  simp only [startTerm, Bool.or_eq_false_iff, beq_eq_false_iff_ne] at h
  exact h.1.2

theorem startTerm_minus {c : Char} (h : startTerm c = false) : c ≠ '-' := by
  simp only [startTerm, Bool.or_eq_false_iff, beq_eq_false_iff_ne] at h
  exact h.2

/-! ### Numbers -/

theorem decInt_plus {i min max : Int} {s : Text} (hi : 0 < i) (h : min ≤ i ∧ i ≤ max) (hs : NoHead isDigit s) :
    decInt min max ('+' :: showInt i ++ s) = .ok i s := by
  rw [decInt]
  obtain ⟨c, r, h1, h2, h3⟩ := showNat_pos (n := i.natAbs) (by omega)
  have hr : readNat (c :: r) = i.natAbs := by rw [← h1]; exact readNat_showNat _
  have hd := isDigit_of_isDigit19 h2
  rw [showInt, if_neg (by omega)]
  refine tryMap_ok (a := (false, c :: r)) ?_ ?_
  · apply alt_ok
    rw [List.cons_append, seqP_ok (map_ok (opt_ok (alt_ok char_ok))), h1, List.cons_append, seqP_ok (sat_ok h2)]
    exact map_ok (digit0_ok h3 hs)
  · have e : ((i.natAbs : Nat) : Int) = i := by omega
    simp only [hr, Bool.false_eq_true, if_false, e]
    rw [if_pos h]

theorem decInt_back {min max : Int} {s : Text} (hs : NoHead startTerm s) : decInt min max s = .back := by
  rw [decInt]
  apply tryMap_back
  cases s with
  | nil => rfl
  | cons c r =>
    have hc := hs c r rfl
    have hd := startTerm_digit hc
    have hd19 : isDigit19 c = false := by
      cases h : isDigit19 c with
      | false => rfl
      | true => rw [isDigit_of_isDigit19 h] at hd; cases hd
    rw [alt_back]
    · apply map_back
      exact char_back (fun e => by rw [e] at hd; revert hd; decide)
    · rw [seqP_ok (map_ok (opt_back (by
        rw [alt_back (char_back (startTerm_plus hc))]; exact char_back (startTerm_minus hc))))]
      exact seqP_back (sat_back hd19)

theorem InRange.isize {i : Int} (h : InRange i) : isizeMin ≤ i ∧ i ≤ (isizeMax : Int) := h

theorem coeff_ok {i : Int} {n s : Text} (hn : NumText i n) (h : InRange i) (hs : NoHead isDigit s) :
    coeff (n ++ s) = .ok i s := by
  cases hn with
  | plain => exact decInt_showInt h.isize hs
  | plus hi => exact decInt_plus hi h.isize hs

theorem NumText.noSpace {i : Int} {n : Text} (hn : NumText i n) (s : Text) : NoHead isSpace (n ++ s) := by
  cases hn with
  | plain => exact noHead_append (showInt_ne_nil _) (isSpace_showInt _)
  | plus hi => exact noHead_cons (by decide)

theorem NumText.ne_nil {i : Int} {n : Text} (hn : NumText i n) : n ≠ [] := by
  cases hn with
  | plain => exact showInt_ne_nil _
  | plus hi => simp

theorem showInt_start (i : Int) : ∃ c r, showInt i = c :: r ∧ (isDigit c = true ∨ c = '-') := by
  rw [showInt]
  split
  · exact ⟨'-', _, rfl, Or.inr rfl⟩
  · cases h : showNat i.natAbs with
    | nil => exact absurd h (showNat_ne_nil _)
    | cons c r => exact ⟨c, r, rfl, Or.inl (isDigit_showNat i.natAbs c (by rw [h]; exact List.mem_cons_self))⟩

/-- The first character of a number. -/
theorem NumText.start {i : Int} {n : Text} (hn : NumText i n) : ∃ c r, n = c :: r ∧ startTerm c = true := by
  cases hn with
  | plain =>
    obtain ⟨c, r, e, h⟩ := showInt_start i
    refine ⟨c, r, e, ?_⟩
    rcases h with h | h
    · simp [startTerm, h]
    · subst h; decide
  | plus hi => exact ⟨'+', _, rfl, by decide⟩

/-! ### Literals and sums -/

theorem varIdx_ok {n : Nat} {s : Text} (h : n ≤ u32Max) (hs : NoHead isDigit s) :
    varIdx ('x' :: (showNat n ++ s)) = .ok n s := by
  rw [varIdx]
  by_cases h0 : n = 0
  · subst h0
    refine tryMap_ok (a := ['0']) ?_ rfl
    rw [seqP_ok char_ok, showNat_zero, List.cons_append, List.nil_append, alt_back (seqP_back (sat_back (by decide)))]
    exact map_ok char_ok
  · obtain ⟨c, r, h1, h2, h3⟩ := showNat_pos (Nat.pos_of_ne_zero h0)
    have hr : readNat (c :: r) = n := by rw [← h1]; exact readNat_showNat n
    refine tryMap_ok (a := c :: r) ?_ (by rw [hr, if_pos h])
    rw [seqP_ok char_ok, h1, List.cons_append]
    apply alt_ok
    rw [seqP_ok (sat_ok h2)]
    exact map_ok (digit0_ok h3 hs)

theorem var_ok {opts : Options} {v : Nat} {s : Text} (h1 : v ≤ 2147483647) (h2 : v + opts.firstVarIdx ≤ 4294967295)
    (hs : NoHead isDigit s) : var opts ('x' :: (showNat (v + opts.firstVarIdx) ++ s)) = .ok v s := by
  have e : v + opts.firstVarIdx - opts.firstVarIdx = v := by omega
  simp only [var, varIdx_ok (show v + opts.firstVarIdx ≤ u32Max from h2) hs]
  rw [if_neg (by omega), e, Var.new, if_pos (show v ≤ maxVarIdx from h1)]

theorem literal_ok {opts : Options} {l : Lit} {t s : Text} (h : LitText opts.firstVarIdx l t) (hs : NoHead isDigit s) :
    literal opts (t ++ s) = .ok l s := by
  rw [literal]
  cases h with
  | pos h1 h2 =>
    rw [List.cons_append, seqP_ok (opt_back (by rw [alt_back (char_back (by decide))]; exact char_back (by decide)))]
    exact map_ok (var_ok h1 h2 hs)
  | tilde h1 h2 =>
    rw [List.cons_append, List.cons_append, seqP_ok (opt_ok (alt_ok char_ok))]
    exact map_ok (var_ok h1 h2 hs)
  | minus h1 h2 =>
    rw [List.cons_append, List.cons_append, seqP_ok (opt_ok (by rw [alt_back (char_back (by decide))]; exact char_ok))]
    exact map_ok (var_ok h1 h2 hs)

theorem LitText.start {first : Nat} {l : Lit} {t : Text} (h : LitText first l t) :
    ∃ c r, t = c :: r ∧ isSpace c = false := by
  cases h with
  | pos h1 h2 => exact ⟨_, _, rfl, by decide⟩
  | tilde h1 h2 => exact ⟨_, _, rfl, by decide⟩
  | minus h1 h2 => exact ⟨_, _, rfl, by decide⟩

theorem LitText.noSpace {first : Nat} {l : Lit} {t : Text} (h : LitText first l t) (s : Text) : NoHead isSpace (t ++ s) := by
  obtain ⟨c, r, e, hc⟩ := h.start
  rw [e]
  exact noHead_cons hc

theorem term_ok {opts : Options} {l : Lit} {w : Int} {n s t r : Text} (hw : InRange w) (hn : NumText w n) (hs : Sep s)
    (hl : LitText opts.firstVarIdx l t) (hr : NoHead isDigit r) : term opts (n ++ (s ++ (t ++ r))) = .ok (l, w) r := by
  rw [term, seqP_ok (coeff_ok hn hw (hs.noDigit _)), seqP_ok (space1_ok hs.1 hs.space (hl.noSpace r))]
  exact map_ok (literal_ok hl hr)

theorem term_back {opts : Options} {s : Text} (h : NoHead startTerm s) : term opts s = .back :=
  seqP_back (decInt_back h)

/-- Text at which a sum ends: space and a character that starts no term. -/
def Stop (r : Text) : Prop := ∃ s w, r = s ++ w ∧ Spaces s ∧ NoHead isSpace w ∧ NoHead startTerm w

theorem Stop.noDigit {r : Text} (h : Stop r) : NoHead isDigit r := by
  obtain ⟨s, w, e, h1, h2, h3⟩ := h
  rw [e]
  exact NoHead.append (fun c hc => isDigit_of_isSpace (h1.space c hc)) (NoHead.mono h3 fun c => startTerm_digit)

theorem sepLoop_stop {opts : Options} {r : Text} (h : Stop r) (f : Nat) : sepLoop (term opts) space1 f r = .ok [] r := by
  cases f with
  | zero => rfl
  | succ f =>
    obtain ⟨s, w, e, h1, h2, h3⟩ := h
    rw [sepLoop]
    by_cases hs : s = []
    · subst hs
      rw [List.nil_append] at e
      subst e
      rw [space1_back h2]
    · subst e
      rw [space1_ok hs h1.space h2]
      simp only [term_back h3]

theorem SumText.noSpace {first : Nat} {p : Lit × Int} {ps : List (Lit × Int)} {t : Text} (h : SumText first (p :: ps) t)
    (r : Text) : NoHead isSpace (t ++ r) := by
  cases h with
  | one h1 h2 h3 h4 => rw [List.append_assoc]; exact h2.noSpace _
  | cons h1 h2 h3 h4 h5 h6 => rw [List.append_assoc]; exact h2.noSpace _

theorem sepLoop_sum {opts : Options} {r : Text} (hr : Stop r) : ∀ (ps : List (Lit × Int)) (t s : Text) (f : Nat),
    ps ≠ [] → SumText opts.firstVarIdx ps t → Sep s → ps.length ≤ f →
    sepLoop (term opts) space1 f (s ++ (t ++ r)) = .ok ps r := by
  intro ps
  induction ps with
  | nil => intro t s f h; exact absurd rfl h
  | cons p ps ih =>
    intro t s f _ ht hs hf
    cases f with
    | zero => simp at hf
    | succ f =>
      rw [sepLoop, space1_ok hs.1 hs.space (ht.noSpace r)]
      cases ht with
      | one h1 h2 h3 h4 =>
        simp only [List.append_assoc, term_ok h1 h2 h3 h4 hr.noDigit, sepLoop_stop hr]
      | cons h1 h2 h3 h4 h5 h6 =>
        simp only [List.append_assoc, term_ok h1 h2 h3 h4 (h5.noDigit _),
          ih _ _ f (by simp) h6 h5 (by simpa using hf)]

theorem sep_length_pos {s : Text} (h : Sep s) : 0 < s.length := length_pos_of_ne h.1

theorem SumText.length_le {first : Nat} {ps : List (Lit × Int)} {t : Text} (h : SumText first ps t) :
    ps.length ≤ t.length := by
  induction h with
  | nil => simp
  | one h1 h2 h3 h4 => have := sep_length_pos h3; simp only [List.length_append, List.length_cons, List.length_nil]; omega
  | cons h1 h2 h3 h4 h5 h6 ih =>
    have := sep_length_pos h3
    simp only [List.length_append, List.length_cons] at ih ⊢
    omega

/-- A sum is read, whatever the space between its tokens. -/
theorem termSum_ok {opts : Options} {ps : List (Lit × Int)} {t r : Text} (h : SumText opts.firstVarIdx ps t) (hr : Stop r) :
    termSum opts (t ++ r) = .ok ps r := by
  rw [termSum, separated0]
  have hlen := h.length_le
  cases h with
  | nil =>
    obtain ⟨s, w, e, h1, h2, h3⟩ := hr
    rw [List.nil_append, e, term_back (NoHead.append (fun c hc => startTerm_space (h1.space c hc)) h3)]
  | one h1 h2 h3 h4 => simp only [List.append_assoc, term_ok h1 h2 h3 h4 hr.noDigit, sepLoop_stop hr]
  | @cons l w n s t s' p ps u h1 h2 h3 h4 h5 h6 =>
    have e := sepLoop_sum (opts := opts) hr (p :: ps) u s' (n ++ (s ++ (t ++ (s' ++ u))) ++ r).length (by simp) h6 h5 (by
      simp only [List.length_append, List.length_cons] at hlen ⊢
      omega)
    simp only [List.append_assoc] at e
    simp only [List.append_assoc, term_ok h1 h2 h3 h4 (h5.noDigit _), e]

/-! ### Statements -/

theorem tag_back {t s : Text} (h : t.isPrefixOf s = false) : tag t s = .back := by simp [tag, h]

theorem operator_ok (op : Op) {s : Text} (hs : NoHead (· == '=') s) : operator (opText op ++ s) = .ok op s := by
  have key : ∀ c, List.isPrefixOf [c, '='] (c :: s) = false := by
    intro c
    cases s with
    | nil => simp [List.isPrefixOf]
    | cons d r =>
      have hd := hs d r rfl
      have hd' : ('=' == d) = false := by
        rw [beq_eq_false_iff_ne] at hd ⊢
        exact fun e => hd e.symm
      simp only [List.isPrefixOf, hd', Bool.and_false, Bool.false_and]
  have t1 : ∀ c : Char, tag [c] (c :: s) = .ok () s := fun c => tag_ok (t := [c])
  cases op with
  | le => exact alt_ok (map_ok (tag_ok (t := ['<', '='])))
  | ge =>
    rw [operator, alt_back (map_back (tag_back rfl))]
    exact alt_ok (map_ok (tag_ok (t := ['>', '='])))
  | lt =>
    show operator ('<' :: s) = _
    rw [operator, alt_back (map_back (tag_back (key '<'))), alt_back (map_back (tag_back rfl))]
    exact alt_ok (map_ok (t1 '<'))
  | gt =>
    show operator ('>' :: s) = _
    rw [operator, alt_back (map_back (tag_back rfl)), alt_back (map_back (tag_back (key '>'))),
      alt_back (map_back (tag_back rfl))]
    exact alt_ok (map_ok (t1 '>'))
  | eq =>
    show operator ('=' :: s) = _
    rw [operator, alt_back (map_back (tag_back rfl)), alt_back (map_back (tag_back rfl)),
      alt_back (map_back (tag_back rfl)), alt_back (map_back (tag_back rfl))]
    exact map_ok (t1 '=')

/-- Ends of lines. -/
def Eol (e : Text) : Prop := e = [] ∨ e = ['\n'] ∨ e = ['\r', '\n']

/-- Characters that end a line. -/
def isEol (c : Char) : Bool := c == '\n' || c == '\r'

theorem Eol.noSpace {e : Text} (h : Eol e) : NoHead isSpace e := by
  rcases h with h | h | h <;> subst h
  · exact noHead_nil _
  · exact noHead_cons (by decide)
  · exact noHead_cons (by decide)

theorem Eol.noTerm {e : Text} (h : Eol e) : NoHead startTerm e := by
  rcases h with h | h | h <;> subst h
  · exact noHead_nil _
  · exact noHead_cons (by decide)
  · exact noHead_cons (by decide)

theorem eol_ok {e : Text} (h : Eol e) : opt (alt eof (seqP lineEnding fun _ => space0)) e = .ok (some ()) [] := by
  rcases h with h | h | h <;> subst h <;> rfl

theorem eol_none {c : Char} {r : Text} (h : isEol c = false) :
    opt (alt eof (seqP lineEnding fun _ => space0)) (c :: r) = .ok none (c :: r) := by
  simp only [isEol, Bool.or_eq_false_iff, beq_eq_false_iff_ne] at h
  apply opt_back
  rw [alt_back rfl]
  apply seqP_back
  rw [lineEnding, alt_back (tag_back _)]
  · apply tag_back
    simp [List.isPrefixOf, Ne.symm h.2]
  · simp [List.isPrefixOf, Ne.symm h.1]

/-- What may follow the statement `t`: a text `e` of which `ending` leaves `r`. -/
structure Ends (e r : Text) : Prop where
  ending : ending e = .ok () r
  stop : Stop e

theorem ends_bare {s e : Text} (hs : Spaces s) (he : Eol e) : Ends (s ++ e) [] := by
  refine ⟨?_, s, e, rfl, hs, he.noSpace, he.noTerm⟩
  have h1 : opt (char ';') e = .ok none e := by
    apply opt_back
    rcases he with h | h | h <;> subst h <;> rfl
  have h2 : space0 e = .ok () e := space0_ok (w := []) (by simp) he.noSpace
  rw [Opb.ending, seqP_ok (space0_ok hs.space he.noSpace), seqP_ok h1, seqP_ok h2, seqP_ok (eol_ok he)]
  rfl

theorem ends_semi {s s' e : Text} (hs : Spaces s) (hs' : Spaces s') (he : Eol e) : Ends (s ++ ';' :: (s' ++ e)) [] := by
  refine ⟨?_, s, _, rfl, hs, noHead_cons (by decide), noHead_cons (by decide)⟩
  rw [Opb.ending, seqP_ok (space0_ok hs.space (noHead_cons (by decide))), seqP_ok (opt_ok char_ok),
    seqP_ok (space0_ok hs'.space he.noSpace), seqP_ok (eol_ok he)]
  rfl

theorem ends_next {s s' u : Text} {c : Char} {r : Text} (hs : Spaces s) (hs' : Spaces s') (hu : u = c :: r)
    (h1 : isSpace c = false) (h2 : isEol c = false) : Ends (s ++ ';' :: (s' ++ u)) u := by
  refine ⟨?_, s, _, rfl, hs, noHead_cons (by decide), noHead_cons (by decide)⟩
  subst hu
  rw [Opb.ending, seqP_ok (space0_ok hs.space (noHead_cons (by decide))), seqP_ok (opt_ok char_ok),
    seqP_ok (space0_ok hs'.space (noHead_cons h1)), seqP_ok (eol_none h2)]
  rfl

/-- The datum read for a statement. -/
def parsed : Stmt → Option Data
  | .constr sum op b => (mkConstr sum op b).map .constr
  | .obj se sum => (accumulate [] 0 sum).map fun r => .obj ⟨se, r.1, r.2⟩

theorem opText_start (op : Op) : ∃ c r, opText op = c :: r ∧ (c = '<' ∨ c = '>' ∨ c = '=') := by
  cases op <;> exact ⟨_, _, rfl, by decide⟩

theorem opStart {c : Char} (h : c = '<' ∨ c = '>' ∨ c = '=') :
    isSpace c = false ∧ startTerm c = false ∧ isEol c = false ∧ c ≠ '*' ∧ isWs c = false := by
  rcases h with h | h | h <;> subst h <;> decide

theorem startTerm_facts {c : Char} (h : startTerm c = true) :
    isSpace c = false ∧ isEol c = false ∧ c ≠ '*' ∧ c ≠ 'm' ∧ c ≠ '=' ∧ isWs c = false := by
  simp only [startTerm, Bool.or_eq_true, beq_iff_eq] at h
  rcases h with (h | h) | h
  · refine ⟨isSpace_of_isDigit h, ?_, ne_of_isDigit h (by decide), ne_of_isDigit h (by decide), ne_of_isDigit h (by decide),
      isWs_of_isDigit h⟩
    simp only [isEol, Bool.or_eq_false_iff, beq_eq_false_iff_ne]
    exact ⟨ne_of_isDigit h (by decide), ne_of_isDigit h (by decide)⟩
  · subst h; decide
  · subst h; decide

theorem constraint_ok {opts : Options} {sum : List (Lit × Int)} {op : Op} {b : Int} {t s s' n e r : Text}
    {c : PbConstraint} (ht : SumText opts.firstVarIdx sum t) (hs : Spaces s) (hs' : Spaces s') (hb : InRange b)
    (hn : NumText b n) (he : Ends e r) (hc : mkConstr sum op b = some c) :
    constraint opts (t ++ (s ++ (opText op ++ (s' ++ n))) ++ e) = .ok c r := by
  obtain ⟨x, q, ex, hx⟩ := opText_start op
  obtain ⟨y, q', ey, hy⟩ := hn.start
  have hxs := opStart hx
  have hys := startTerm_facts hy
  have hstop : Stop (s ++ (opText op ++ (s' ++ (n ++ e)))) := by
    refine ⟨s, _, rfl, hs, ?_, ?_⟩
    · rw [ex]; exact noHead_cons hxs.1
    · rw [ex]; exact noHead_cons hxs.2.1
  have heq : NoHead (· == '=') (s' ++ (n ++ e)) := by
    apply NoHead.append
    · intro c hc
      rcases hs' c hc with h | h <;> subst h <;> decide
    · rw [ey]
      refine noHead_cons ?_
      simpa using hys.2.2.2.2.1
  simp only [List.append_assoc]
  rw [constraint, seqP_ok (termSum_ok ht hstop), seqP_ok (space0_ok hs.space (by rw [ex]; exact noHead_cons hxs.1)),
    seqP_ok (operator_ok op heq), seqP_ok (space0_ok hs'.space (hn.noSpace e)),
    seqP_ok (cutErr_ok (coeff_ok hn hb he.stop.noDigit)), seqP_ok he.ending, hc]
  rfl

theorem objective_ok {opts : Options} {se : Sense} {sum : List (Lit × Int)} {m t s e r : Text}
    {o : List (Nat × Lit) × Int} (hm : ∀ u, sense (m ++ u) = .ok se u)
    (ht : SumText opts.firstVarIdx sum t) (hs : Spaces s) (he : Ends e r) (hc : accumulate [] 0 sum = some o) :
    objective opts (m ++ (s ++ t) ++ e) = .ok ⟨se, o.1, o.2⟩ r := by
  simp only [List.append_assoc]
  rw [objective, seqP_ok (hm _)]
  have tail : ∀ e', Ends e' r → (seqP (cutErr (termSum opts)) fun sum => seqP (orPanic (accumulate [] 0 sum)) fun acc =>
      seqP (cutErr Opb.ending) fun _ => retP (⟨se, acc.1, acc.2⟩ : Obj)) (t ++ e') = .ok ⟨se, o.1, o.2⟩ r := by
    intro e' he'
    have h1 : orPanic (some o) e' = .ok o e' := rfl
    rw [seqP_ok (cutErr_ok (termSum_ok ht he'.stop)), hc, seqP_ok h1, seqP_ok (cutErr_ok he'.ending)]
    rfl
  cases sum with
  | nil =>
    cases ht with
    | nil =>
      obtain ⟨s1, w, e1, h1, h2, h3⟩ := he.stop
      have h4 : space0 (s ++ ([] ++ e)) = .ok () w := by
        rw [List.nil_append, e1, ← List.append_assoc]
        apply space0_ok ?_ h2
        intro c hc
        rw [List.mem_append] at hc
        rcases hc with hc | hc
        · exact hs.space c hc
        · exact h1.space c hc
      rw [seqP_ok h4]
      refine tail w ⟨?_, [], w, rfl, spaces_nil, h2, h3⟩
      have h5 := he.ending
      rw [e1, Opb.ending, seqP_ok (space0_ok h1.space h2)] at h5
      have h6 : space0 w = .ok () w := space0_ok (w := []) (by simp) h2
      rw [Opb.ending, seqP_ok h6]
      exact h5
  | cons p ps =>
    rw [seqP_ok (space0_ok hs.space (ht.noSpace e))]
    exact tail e he

theorem StmtText.start {first : Nat} {st : Stmt} {t : Text} (h : StmtText first st t) :
    ∃ c r, t = c :: r ∧ isSpace c = false ∧ isEol c = false ∧ c ≠ '*' ∧ isWs c = false := by
  cases h with
  | @constr sum op b t s s' n h1 h2 h3 h4 h5 h6 =>
    cases h1 with
    | nil =>
      obtain ⟨x, q, ex, hx⟩ := opText_start op
      obtain ⟨f1, f2, f3, f4, f5⟩ := opStart hx
      rw [h3 rfl, ex]
      exact ⟨x, _, rfl, f1, f3, f4, f5⟩
    | one g1 g2 g3 g4 =>
      obtain ⟨y, q', ey, hy⟩ := g2.start
      obtain ⟨f1, f2, f3, f4, f5, f6⟩ := startTerm_facts hy
      rw [ey]
      exact ⟨y, _, rfl, f1, f2, f3, f6⟩
    | cons g1 g2 g3 g4 g5 g6 =>
      obtain ⟨y, q', ey, hy⟩ := g2.start
      obtain ⟨f1, f2, f3, f4, f5, f6⟩ := startTerm_facts hy
      rw [ey]
      exact ⟨y, _, rfl, f1, f2, f3, f6⟩
  | min h1 h2 => exact ⟨'m', _, rfl, by decide, by decide, by decide, by decide⟩
  | max h1 h2 => exact ⟨'m', _, rfl, by decide, by decide, by decide, by decide⟩

theorem comment_back' {x : Char} {r : Text} (h : x ≠ '*') : comment (x :: r) = .back := by
  have : (seqP (char '*') fun _ => seqP tillLineEnding fun _ => opt lineEnding) (x :: r) = .back :=
    seqP_back (char_back h)
  simp only [comment, Dimacs.taken, this]

theorem constraint_m {opts : Options} (r : Text) : constraint opts ('m' :: r) = .back := by
  have h1 : termSum opts ('m' :: r) = .ok [] ('m' :: r) := by
    rw [termSum, separated0, term_back (noHead_cons (by decide))]
  have h2 : space0 ('m' :: r) = .ok () ('m' :: r) := space0_ok (w := []) (by simp) (noHead_cons (by decide))
  rw [constraint, seqP_ok h1, seqP_ok h2]
  apply seqP_back
  rw [operator, alt_back (map_back (tag_back rfl)), alt_back (map_back (tag_back rfl)),
    alt_back (map_back (tag_back rfl)), alt_back (map_back (tag_back rfl))]
  exact map_back (tag_back rfl)

theorem sense_min (u : Text) : sense ("min:".toList ++ u) = .ok .minimize u :=
  alt_ok (map_ok (tag_ok (t := "min:".toList)))

theorem sense_max (u : Text) : sense ("max:".toList ++ u) = .ok .maximize u := by
  rw [sense, alt_back (map_back (tag_back rfl))]
  exact map_ok (tag_ok (t := "max:".toList))

/-- A statement is read. -/
theorem data_ok {opts : Options} {st : Stmt} {d : Data} {t e r : Text} (h : StmtText opts.firstVarIdx st t)
    (he : Ends e r) (hd : parsed st = some d) : data opts (t ++ e) = .ok d r := by
  obtain ⟨c, q, ec, h1, h2, h3, h4⟩ := h.start
  have hsp : space0 (t ++ e) = .ok () (t ++ e) := by
    rw [ec]; exact space0_ok (w := []) (by simp) (noHead_cons h1)
  have hcm : map Data.cmt comment (t ++ e) = .back := by
    rw [ec]; exact map_back (comment_back' h3)
  rw [data, seqP_ok hsp, alt_back hcm]
  cases h with
  | constr g1 g2 g3 g4 g5 g6 =>
    simp only [parsed, Option.map_eq_some_iff] at hd
    obtain ⟨c', hc', hd⟩ := hd
    subst hd
    exact alt_ok (map_ok (constraint_ok g1 g2 g4 g5 g6 he hc'))
  | min g1 g2 =>
    simp only [parsed, Option.map_eq_some_iff] at hd
    obtain ⟨c', hc', hd⟩ := hd
    subst hd
    rw [alt_back (show map Data.constr (constraint opts) ("min:".toList ++ _ ++ e) = .back from map_back (constraint_m _))]
    exact map_ok (objective_ok sense_min g2 g1 he hc')
  | max g1 g2 =>
    simp only [parsed, Option.map_eq_some_iff] at hd
    obtain ⟨c', hc', hd⟩ := hd
    subst hd
    rw [alt_back (show map Data.constr (constraint opts) ("max:".toList ++ _ ++ e) = .back from map_back (constraint_m _))]
    exact map_ok (objective_ok sense_max g2 g1 he hc')

theorem tillLineEnding_eol {t e : Text} (h1 : '\n' ∉ t) (h2 : '\r' ∉ t) (he : Eol e) :
    tillLineEnding (t ++ e) = .ok t e := by
  have hw : ∀ c ∈ t, (!(c == '\r' || c == '\n')) = true := by
    intro c hc
    have e1 : c ≠ '\n' := fun e => h1 (e ▸ hc)
    have e2 : c ≠ '\r' := fun e => h2 (e ▸ hc)
    simp [e1, e2]
  have hs : NoHead (fun c => !(c == '\r' || c == '\n')) e := by
    rcases he with h | h | h <;> subst h
    · exact noHead_nil _
    · exact noHead_cons (by decide)
    · exact noHead_cons (by decide)
  simp only [tillLineEnding, dropWhile_append hw hs, takeWhile_append hw hs]
  rcases he with h | h | h <;> subst h <;> rfl

theorem comment_ok' {t e : Text} (h1 : '\n' ∉ t) (h2 : '\r' ∉ t) (he : Eol e) :
    comment ('*' :: (t ++ e)) = .ok ('*' :: (t ++ e)) [] := by
  have : ∃ o, (seqP (char '*') fun _ => seqP tillLineEnding fun _ => opt lineEnding) ('*' :: (t ++ e)) = .ok o [] := by
    rw [seqP_ok char_ok, seqP_ok (tillLineEnding_eol h1 h2 he)]
    rcases he with h | h | h <;> subst h
    · exact ⟨none, rfl⟩
    · exact ⟨some (), rfl⟩
    · exact ⟨some (), rfl⟩
  obtain ⟨o, h⟩ := this
  simp only [comment, Dimacs.taken, h]
  rw [List.length_nil, Nat.sub_zero, List.take_length]

theorem data_comment {opts : Options} {t e : Text} (h1 : '\n' ∉ t) (h2 : '\r' ∉ t) (he : Eol e) :
    data opts ('*' :: (t ++ e)) = .ok (.cmt ('*' :: (t ++ e))) [] := by
  have hsp : space0 ('*' :: (t ++ e)) = .ok () ('*' :: (t ++ e)) := space0_ok (w := []) (by simp) (noHead_cons (by decide))
  rw [data, seqP_ok hsp]
  exact alt_ok (map_ok (comment_ok' h1 h2 he))

/-! ### Lines and files -/

/-- The data read for statements, in order, with comments in between. -/
inductive Reads : List Stmt → List Data → Prop where
  | nil : Reads [] []
  | cmt {sts t ds} : Reads sts ds → Reads sts (.cmt t :: ds)
  | cons {st sts d ds} : parsed st = some d → Reads sts ds → Reads (st :: sts) (d :: ds)

theorem Reads.append {s1 s2 : List Stmt} {d1 d2 : List Data} (h1 : Reads s1 d1) (h2 : Reads s2 d2) :
    Reads (s1 ++ s2) (d1 ++ d2) := by
  induction h1 with
  | nil => exact h2
  | cmt _ ih => exact .cmt ih
  | cons h _ ih => exact .cons h ih

theorem LineText.start {first : Nat} {sts : List Stmt} {t : Text} (h : LineText first sts t) :
    ∃ c r, t = c :: r ∧ isSpace c = false ∧ isEol c = false ∧ isWs c = false := by
  cases h with
  | comment h1 h2 => exact ⟨'*', _, rfl, by decide, by decide, by decide⟩
  | last h1 h2 =>
    obtain ⟨c, r, e, g1, g2, g3, g4⟩ := h1.start
    rw [e]; exact ⟨c, _, rfl, g1, g2, g4⟩
  | semi h1 h2 h3 =>
    obtain ⟨c, r, e, g1, g2, g3, g4⟩ := h1.start
    rw [e]; exact ⟨c, _, rfl, g1, g2, g4⟩
  | cons h1 h2 h3 h4 =>
    obtain ⟨c, r, e, g1, g2, g3, g4⟩ := h1.start
    rw [e]; exact ⟨c, _, rfl, g1, g2, g4⟩

theorem lineItems_step {opts : Options} {f : Nat} {s r : Text} {d : Data} (hs : s ≠ []) (h : data opts s = .ok d r) :
    lineItems opts (f + 1) s = ((.ok d) :: (lineItems opts f r).1, (lineItems opts f r).2) := by
  cases s with
  | nil => exact absurd rfl hs
  | cons c q => simp only [lineItems, h]

theorem lineItems_nil (opts : Options) (f : Nat) : lineItems opts f [] = ([], true) := by
  cases f <;> rfl

theorem lineItems_ok {opts : Options} {sts : List Stmt} {t e : Text} (h : LineText opts.firstVarIdx sts t) (he : Eol e)
    (hp : ∀ st ∈ sts, (parsed st).isSome = true) : ∀ f, t.length ≤ f →
    ∃ ds, Reads sts ds ∧ lineItems opts f (t ++ e) = (ds.map .ok, true) := by
  induction h with
  | @comment t h1 h2 =>
    intro f hf
    cases f with
    | zero => simp at hf
    | succ f =>
      refine ⟨[.cmt ('*' :: (t ++ e))], .cmt .nil, ?_⟩
      rw [List.cons_append, lineItems_step (by simp) (data_comment h1 h2 he), lineItems_nil]
      rfl
  | @last st t s h1 h2 =>
    intro f hf
    obtain ⟨c, q, ec, g⟩ := h1.start
    obtain ⟨d, hd⟩ := Option.isSome_iff_exists.mp (hp st List.mem_cons_self)
    cases f with
    | zero => rw [ec] at hf; simp at hf
    | succ f =>
      refine ⟨[d], .cons hd .nil, ?_⟩
      rw [List.append_assoc, lineItems_step (by rw [ec]; simp) (data_ok h1 (ends_bare h2 he) hd), lineItems_nil]
      rfl
  | @semi st t s s' h1 h2 h3 =>
    intro f hf
    obtain ⟨c, q, ec, g⟩ := h1.start
    obtain ⟨d, hd⟩ := Option.isSome_iff_exists.mp (hp st List.mem_cons_self)
    cases f with
    | zero => rw [ec] at hf; simp at hf
    | succ f =>
      refine ⟨[d], .cons hd .nil, ?_⟩
      have e1 : t ++ (s ++ ';' :: s') ++ e = t ++ (s ++ ';' :: (s' ++ e)) := by simp
      rw [e1, lineItems_step (by rw [ec]; simp) (data_ok h1 (ends_semi h2 h3 he) hd), lineItems_nil]
      rfl
  | @cons st t s s' sts u h1 h2 h3 h4 ih =>
    intro f hf
    obtain ⟨c, q, ec, g⟩ := h1.start
    obtain ⟨c', q', ec', g1, g2, g3⟩ := h4.start
    obtain ⟨d, hd⟩ := Option.isSome_iff_exists.mp (hp st List.mem_cons_self)
    cases f with
    | zero => rw [ec] at hf; simp at hf
    | succ f =>
      obtain ⟨ds, hr, hi⟩ := ih (fun st' h' => hp st' (List.mem_cons_of_mem _ h')) f (by
        simp only [List.length_append, List.length_cons] at hf; omega)
      refine ⟨d :: ds, .cons hd hr, ?_⟩
      have e1 : t ++ (s ++ ';' :: (s' ++ u)) ++ e = t ++ (s ++ ';' :: (s' ++ (u ++ e))) := by simp
      rw [e1, lineItems_step (by rw [ec]; simp)
        (data_ok h1 (ends_next (u := u ++ e) h2 h3 (by rw [ec']; rfl) g1 g2) hd), hi]
      rfl

theorem trimStart_line {first : Nat} {w t e : Text} {sts : List Stmt} (hw : White w) (h : LineText first sts t) :
    trimStart (w ++ (t ++ e)) = t ++ e := by
  obtain ⟨c, r, ec, g1, g2, g3⟩ := h.start
  rw [trimStart_append hw, ec]
  simp [trimStart, g3]

theorem linesItems_line {opts : Options} {w t e : Text} {sts : List Stmt} (ls : List Text) (hw : White w)
    (h : LineText opts.firstVarIdx sts t) (he : Eol e) (hp : ∀ st ∈ sts, (parsed st).isSome = true) :
    ∃ ds, Reads sts ds ∧ linesItems opts ((w ++ (t ++ e)) :: ls) = ds.map .ok ++ linesItems opts ls := by
  obtain ⟨ds, hr, hi⟩ := lineItems_ok h he hp (w ++ (t ++ e)).length (by simp only [List.length_append]; omega)
  refine ⟨ds, hr, ?_⟩
  rw [linesItems, trimStart_line hw h, hi]
  rfl

theorem trimStart_white {w : Text} (hw : White w) : trimStart w = [] := by
  have := trimStart_append (s := []) hw
  rw [List.append_nil] at this
  rw [this]; rfl

theorem linesItems_blank {opts : Options} {w : Text} (ls : List Text) (hw : White w) :
    linesItems opts (w :: ls) = linesItems opts ls := by
  rw [linesItems, trimStart_white hw, lineItems_nil]
  rfl

/-- A file is read, statement by statement. -/
theorem items_ok {opts : Options} {sts : List Stmt} {t : Text} (h : FileText opts.firstVarIdx sts t)
    (hp : ∀ st ∈ sts, (parsed st).isSome = true) :
    ∃ ds, Reads sts ds ∧ items opts t = ds.map .ok := by
  rw [items]
  induction h with
  | nil => exact ⟨[], .nil, rfl⟩
  | @blank w sts rest h1 h2 h3 ih =>
    rw [readLines_line h2, linesItems_blank _ (by
      intro c hc
      rw [List.mem_append] at hc
      rcases hc with hc | hc
      · exact h1 c hc
      · simp at hc; subst hc; decide)]
    exact ih hp
  | @line w t sts sts' rest h1 h2 h3 h4 ih =>
    obtain ⟨ds', hr', hi'⟩ := ih fun st hst => hp st (List.mem_append_right _ hst)
    obtain ⟨ds, hr, hi⟩ := linesItems_line (e := ['\n']) (readLines rest) h1 h3 (Or.inr (Or.inl rfl))
      fun st hst => hp st (List.mem_append_left _ hst)
    refine ⟨ds ++ ds', hr.append hr', ?_⟩
    rw [← List.append_assoc, readLines_line h2, List.append_assoc, hi, hi', List.map_append]
  | @lineCr w t sts sts' rest h1 h2 h3 h4 ih =>
    obtain ⟨ds', hr', hi'⟩ := ih fun st hst => hp st (List.mem_append_right _ hst)
    obtain ⟨ds, hr, hi⟩ := linesItems_line (e := ['\r', '\n']) (readLines rest) h1 h3 (Or.inr (Or.inr rfl))
      fun st hst => hp st (List.mem_append_left _ hst)
    refine ⟨ds ++ ds', hr.append hr', ?_⟩
    have e1 : w ++ (t ++ '\r' :: '\n' :: rest) = (w ++ t ++ ['\r']) ++ '\n' :: rest := by simp
    have e2 : '\n' ∉ w ++ t ++ ['\r'] := by
      intro hh
      rw [List.mem_append] at hh
      rcases hh with hh | hh
      · exact h2 hh
      · simp at hh
    have e3 : w ++ t ++ ['\r'] ++ ['\n'] = w ++ (t ++ ['\r', '\n']) := by simp
    rw [e1, readLines_line e2, e3, hi, hi', List.map_append]
  | @lastBlank w h1 h2 =>
    refine ⟨[], .nil, ?_⟩
    by_cases hw : w = []
    · subst hw; rfl
    · rw [readLines_last h2 hw, linesItems_blank _ h1]; rfl
  | @lastLine w t sts h1 h2 h3 =>
    obtain ⟨ds, hr, hi⟩ := linesItems_line (e := []) [] h1 h3 (Or.inl rfl) hp
    refine ⟨ds, hr, ?_⟩
    obtain ⟨c, r, ec, g⟩ := h3.start
    rw [readLines_last h2 (by rw [ec]; simp)]
    rw [List.append_nil] at hi
    rw [hi]
    simp [linesItems]

end RustSat.OpbSpec
