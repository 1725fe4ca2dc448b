import Verif.Lemmas.DimacsAccept
/-
Lines and files that the DIMACS parsers accept (C94).
-/
namespace RustSat.DimacsSpec
open Text P Dimacs
open Clustering (seqP_inv map_inv alt_inv opt_inv cutErr_inv sat_inv takeWhile_all)
variable {α : Type} {R : α → Text → Prop} {p : P α}

/-- The parser accepts exactly the lines of the relation. -/
structure ExactLine (R : α → Text → Prop) (p : P α) : Prop where
  tight : ∀ a t, R a t → Tight t ∧ t ≠ [] ∧ '\n' ∉ t
  exact : ∀ a t, Tight t → t ≠ [] → '\n' ∉ t → (parse p t = some a ↔ R a t)

theorem parse_inv {p : P α} {s : Text} {a : α} (h : parse p s = some a) : p s = .ok a [] := by
  unfold parse at h
  cases hp : p s with
  | ok b r =>
    rw [hp] at h
    cases r with
    | nil => cases h; rfl
    | cons c r => cases h
  | back => rw [hp] at h; cases h
  | cut => rw [hp] at h; cases h
  | panic => rw [hp] at h; cases h

theorem mem_mid {x : Char} {a b c : Text} (h : x ∉ a ++ (b ++ c)) : x ∉ a ∧ x ∉ b ∧ x ∉ c := by
  simpa [not_or] using h

theorem lastTight_sep {p s : Text} (hs : Sep s) : ¬ LastTight (p ++ s) := by
  intro h
  exact hs.1 (lastTight_space hs.space h.suffix)

theorem comment_head {x : Char} {r : Text} (h : isDigit x = true ∨ x = '+' ∨ x = '-') : comment (x :: r) = .back := by
  apply comment_back
  rcases h with h | rfl | rfl
  · exact ne_of_isDigit h (by decide)
  · decide
  · decide

theorem comment_line_tight {t : Text} (h : CommentText ('c' :: t)) : Tight ('c' :: t) ∧ 'c' :: t ≠ [] ∧ '\n' ∉ 'c' :: t :=
  ⟨h.tight, by simp, h.nl⟩

theorem clause_line_tight {b : Bool} {c : Clause} {t : Text} (h : ClauseLine b c t) : Tight t ∧ t ≠ [] ∧ '\n' ∉ t :=
  ⟨⟨fun x r e => (h.head x r e).1, h.lastTight⟩, h.ne_nil, h.newline.1⟩

theorem tight_noSpace {t : Text} (h : Tight t) : NoHead isSpace t := fun x r e => notSpace_of_notWs (h.head x r e)

theorem cnf_exact : ExactLine CnfLineRead cnfLine := by
  constructor
  · intro a t h
    cases h with
    | clause h => exact clause_line_tight h
    | comment h => exact comment_line_tight h
  · intro a t ht hne hn
    constructor
    · intro h
      rcases alt_inv (parse_inv h) with h | h
      · obtain ⟨u, h1, rfl⟩ := map_inv h
        obtain ⟨rfl, r, e, hr⟩ := comment_inv hn h1
        subst e
        exact .comment ⟨hn, hr, ht.last⟩
      · obtain ⟨c, h1, rfl⟩ := map_inv h
        rcases clause_inv (tight_noSpace ht) hn ht.last h1 with ⟨e, _⟩ | ⟨b, hb⟩
        · exact absurd e hne
        · exact .clause hb
    · intro h
      apply parse_ok
      cases h with
      | @clause b c t h =>
        cases t with
        | nil => exact absurd rfl hne
        | cons x r =>
          rw [cnfLine, alt_back (map_back (comment_head (h.head x r rfl).2))]
          exact map_ok (clause_line h)
      | comment h => exact alt_ok (map_ok (comment_ok h))

/-! ### Hard and soft clauses -/

theorem NatText.chars {n : Nat} {t : Text} (h : NatText n t) :
    t ≠ [] ∧ (∀ c ∈ t, isWs c = false) ∧ ∀ x r, t = x :: r → isDigit x = true ∨ x = '+' := by
  obtain ⟨d, hd, _, ht⟩ := h
  have hall : ∀ c ∈ d, isDigit c = true := by
    rcases hd with rfl | hd
    · intro c hc; rw [List.mem_singleton] at hc; subst hc; decide
    · exact hd.all
  have hne : d ≠ [] := by
    rcases hd with rfl | hd
    · simp
    · obtain ⟨c, r, e, _⟩ := hd.head; rw [e]; simp
  rcases ht with rfl | rfl
  · exact ⟨hne, fun c hc => isWs_of_isDigit (hall c hc), fun x r e => Or.inl (hall x (by rw [e]; simp))⟩
  · refine ⟨by simp, ?_, fun x r e => by cases e; exact Or.inr rfl⟩
    intro c hc
    rcases List.mem_cons.1 hc with rfl | hc
    · decide
    · exact isWs_of_isDigit (hall c hc)

theorem hard_inv {t : Text} {c : Clause} (hn : '\n' ∉ t) (ht : LastTight t) (h : hardClause t = .ok c []) :
    ∃ b s u, Sep s ∧ ClauseLine b c u ∧ t = 'h' :: (s ++ u) := by
  obtain ⟨_, r, h1, h2⟩ := seqP_inv h
  obtain ⟨_, r', h3, h4⟩ := seqP_inv h2
  have e1 := char_inv h1
  obtain ⟨s, hs, e2, hns⟩ := space1_inv (cutErr_inv h3)
  have e : t = 'h' :: (s ++ r') := by rw [e1, e2]
  have hn' : '\n' ∉ r' := fun hh => hn (by rw [e]; simp [hh])
  have ht' : LastTight r' := by
    rw [e, show 'h' :: (s ++ r') = ('h' :: s) ++ r' from rfl] at ht
    exact ht.suffix
  rcases clause_inv hns hn' ht' (cutErr_inv h4) with ⟨e3, _⟩ | ⟨b, hb⟩
  · exfalso
    rw [e, e3, List.append_nil, show 'h' :: s = ['h'] ++ s from rfl] at ht
    exact lastTight_sep hs ht
  · exact ⟨b, s, r', hs, hb, e⟩

theorem soft_inv {t : Text} {w : Nat} {c : Clause} (hn : '\n' ∉ t) (ht : LastTight t) (h : softClause t = .ok (w, c) []) :
    w ≤ usizeMax ∧ ∃ b n s u, NatText w n ∧ Sep s ∧ ClauseLine b c u ∧ t = n ++ (s ++ u) := by
  obtain ⟨w', r, h1, h2⟩ := seqP_inv h
  obtain ⟨_, r', h3, h4⟩ := seqP_inv h2
  obtain ⟨c', r'', h5, h6⟩ := seqP_inv h4
  cases h6
  obtain ⟨hm, n, hw, e1⟩ := decUint_inv h1
  obtain ⟨s, hs, e2, hns⟩ := space1_inv h3
  have e : t = n ++ (s ++ r') := by rw [e1, e2]
  have hn' : '\n' ∉ r' := fun hh => hn (by rw [e]; simp [hh])
  have ht' : LastTight r' := by
    rw [e, ← List.append_assoc] at ht
    exact ht.suffix
  rcases clause_inv hns hn' ht' h5 with ⟨e3, _⟩ | ⟨b, hb⟩
  · exfalso
    rw [e, e3, List.append_nil] at ht
    exact lastTight_sep hs ht
  · exact ⟨hm, b, n, s, r', hw, hs, hb, e⟩

theorem hard_line {b : Bool} {c : Clause} {s t : Text} (hs : Sep s) (h : ClauseLine b c t) : hardClause ('h' :: (s ++ t)) = .ok c [] := by
  rw [hardClause, seqP_ok char_ok, seqP_ok (cutErr_ok (space1_ok hs.1 hs.space h.noSpace))]
  exact cutErr_ok (clause_line h)

theorem soft_ok {b : Bool} {w : Nat} {c : Clause} {n s t : Text} (hw : NatText w n) (hm : w ≤ usizeMax) (hs : Sep s) (h : ClauseLine b c t) :
    softClause (n ++ (s ++ t)) = .ok (w, c) [] := by
  rw [softClause, weight, seqP_ok (hw.ok hm (hs.noDigit t)), seqP_ok (space1_ok hs.1 hs.space h.noSpace), seqP_ok (clause_line h)]
  rfl

theorem line_tight {b : Bool} {c : Clause} {p s t : Text} (hp : p ≠ []) (hc : ∀ x ∈ p, isWs x = false) (hs : Sep s) (h : ClauseLine b c t) :
    Tight (p ++ (s ++ t)) ∧ p ++ (s ++ t) ≠ [] ∧ '\n' ∉ p ++ (s ++ t) := by
  refine ⟨⟨?_, ?_⟩, by simp [hp], ?_⟩
  · intro x r e
    cases p with
    | nil => exact absurd rfl hp
    | cons y p =>
      cases e
      exact hc _ List.mem_cons_self
  · intro x r e
    rcases List.eq_nil_or_concat t with e' | ⟨r', y, e'⟩
    · exact absurd e' h.ne_nil
    · have e' : t = r' ++ [y] := by simpa using e'
      have : x = y := by
        rw [e'] at e
        have := congrArg List.getLast? e
        simpa using this.symm
      subst this
      exact h.lastTight x r' e'
  · simp only [List.mem_append, not_or]
    refine ⟨fun hm => ?_, hs.newline, h.newline.1⟩
    have := hc _ hm
    revert this; decide

theorem nat_head {w : Nat} {n s : Text} (hw : NatText w n) : ∃ x r, n ++ s = x :: r ∧ (isDigit x = true ∨ x = '+') := by
  cases n with
  | nil => exact absurd rfl hw.chars.1
  | cons x r => exact ⟨x, r ++ s, rfl, hw.chars.2.2 x r rfl⟩

theorem ne_of_head {x d : Char} (h : isDigit x = true ∨ x = '+') (hd : isDigit d = false) (hp : d ≠ '+') : x ≠ d := by
  rcases h with h | rfl
  · exact ne_of_isDigit h hd
  · exact hp.symm

/-- The parser of hard and soft clauses. -/
def dataP : P WcnfData := alt (map WcnfData.hard hardClause) (map (fun p => WcnfData.soft p.1 p.2) softClause)

theorem data_inv {t : Text} {d : WcnfData} (hn : '\n' ∉ t) (ht : LastTight t) (h : dataP t = .ok d []) : WcnfDataRead d t := by
  rcases alt_inv h with h | h
  · obtain ⟨c, h1, rfl⟩ := map_inv h
    obtain ⟨b, s, u, h2, h3, rfl⟩ := hard_inv hn ht h1
    exact .hard h2 h3
  · obtain ⟨⟨w, c⟩, h1, rfl⟩ := map_inv h
    obtain ⟨h0, b, n, s, u, h2, h3, h4, rfl⟩ := soft_inv hn ht h1
    exact .soft h2 h0 h3 h4

theorem data_ok {t : Text} {d : WcnfData} (h : WcnfDataRead d t) : dataP t = .ok d [] := by
  cases h with
  | hard hs h => exact alt_ok (map_ok (hard_line hs h))
  | @soft b w c n s t hw hm hs h =>
    obtain ⟨x, r, e, hx⟩ := nat_head (s := s ++ t) hw
    rw [dataP, alt_back (map_back (by rw [e]; exact hardClause_back (ne_of_head hx (by decide) (by decide))))]
    exact map_ok (soft_ok hw hm hs h)

theorem data_tight {t : Text} {d : WcnfData} (h : WcnfDataRead d t) : Tight t ∧ t ≠ [] ∧ '\n' ∉ t := by
  cases h with
  | hard hs h => exact line_tight (p := ['h']) (by simp) (by decide) hs h
  | soft hw _ hs h => exact line_tight hw.chars.1 hw.chars.2.1 hs h

theorem data_noComment {t : Text} {d : WcnfData} (h : WcnfDataRead d t) : comment t = .back := by
  cases h with
  | hard hs h => exact comment_back (by decide)
  | @soft b w c n s t hw _ hs h =>
    obtain ⟨x, r, e, hx⟩ := nat_head (s := s ++ t) hw
    rw [e]
    exact comment_back (ne_of_head hx (by decide) (by decide))

theorem wcnf_exact : ExactLine WcnfLineRead wcnfPost22Line := by
  constructor
  · intro a t h
    cases h with
    | data h => exact data_tight h
    | comment h => exact comment_line_tight h
  · intro a t ht hne hn
    constructor
    · intro h
      rcases alt_inv (parse_inv h) with h | h
      · obtain ⟨u, h1, rfl⟩ := map_inv h
        obtain ⟨rfl, r, e, hr⟩ := comment_inv hn h1
        subst e
        exact .comment ⟨hn, hr, ht.last⟩
      · exact .data (data_inv hn ht.last h)
    · intro h
      apply parse_ok
      cases h with
      | data h =>
        rw [wcnfPost22Line, alt_back (map_back (data_noComment h))]
        exact data_ok h
      | comment h => exact alt_ok (map_ok (comment_ok h))

theorem oldWcnf_exact (top : Nat) : ExactLine (OldWcnfLineRead top) (wcnfPre22Line top) := by
  constructor
  · intro a t h
    cases h with
    | hard hw _ _ hs h => exact line_tight hw.chars.1 hw.chars.2.1 hs h
    | soft hw _ _ hs h => exact line_tight hw.chars.1 hw.chars.2.1 hs h
    | comment h => exact comment_line_tight h
  · intro a t ht hne hn
    constructor
    · intro h
      rcases alt_inv (parse_inv h) with h | h
      · obtain ⟨u, h1, rfl⟩ := map_inv h
        obtain ⟨rfl, r, e, hr⟩ := comment_inv hn h1
        subst e
        exact .comment ⟨hn, hr, ht.last⟩
      · obtain ⟨⟨w, c⟩, h1, rfl⟩ := map_inv h
        obtain ⟨h0, b, n, s, u, h2, h3, h4, rfl⟩ := soft_inv hn ht.last h1
        by_cases hw : w ≥ top
        · rw [if_pos hw]; exact .hard h2 h0 hw h3 h4
        · rw [if_neg hw]; exact .soft h2 h0 (by omega) h3 h4
    · intro h
      apply parse_ok
      have key : ∀ {b : Bool} {w : Nat} {c : Clause} {n s t : Text}, NatText w n → w ≤ usizeMax → Sep s → ClauseLine b c t →
          wcnfPre22Line top (n ++ (s ++ t)) = .ok (if w ≥ top then .hard c else .soft w c) [] := by
        intro b w c n s t hw hm hs h
        obtain ⟨x, r, e, hx⟩ := nat_head (s := s ++ t) hw
        rw [wcnfPre22Line, alt_back (map_back (by rw [e]; exact comment_back (ne_of_head hx (by decide) (by decide))))]
        exact map_ok (soft_ok hw hm hs h)
      cases h with
      | hard hw hm htop hs h => rw [key hw hm hs h, if_pos htop]
      | soft hw hm htop hs h => rw [key hw hm hs h, if_neg (by omega)]
      | comment h => exact alt_ok (map_ok (comment_ok h))

/-! ### Soft clauses of several objectives -/

theorem moSoft_inv {t : Text} {i w : Nat} {c : Clause} (hn : '\n' ∉ t) (ht : LastTight t) (h : moSoftClause t = .ok (i, w, c) []) :
    McnfLineRead (.soft i w c) t := by
  obtain ⟨_, r1, h1, g1⟩ := seqP_inv h
  obtain ⟨_, r2, h2, g2⟩ := seqP_inv g1
  obtain ⟨i', r3, h3, g3⟩ := seqP_inv g2
  obtain ⟨_, r4, h4, g4⟩ := seqP_inv g3
  obtain ⟨w', r5, h5, g5⟩ := seqP_inv g4
  obtain ⟨_, r6, h6, g6⟩ := seqP_inv g5
  obtain ⟨c', r7, h7, g7⟩ := seqP_inv g6
  cases g7
  have e1 := char_inv h1
  obtain ⟨s, hs, e2, _⟩ := space0_inv h2
  obtain ⟨d, h3', hi⟩ := tryMap_inv (cutErr_inv h3)
  obtain ⟨hd, e3, _⟩ := digits_inv h3'
  obtain ⟨s', hs', e4, _⟩ := space1_inv (cutErr_inv h4)
  obtain ⟨hm, n, hw, e5⟩ := decUint_inv (cutErr_inv h5)
  obtain ⟨s'', hs'', e6, hns⟩ := space1_inv (cutErr_inv h6)
  have e : t = 'o' :: (s ++ (d ++ (s' ++ (n ++ (s'' ++ r6))))) := by rw [e1, e2, e3, e4, e5, e6]
  have hn' : '\n' ∉ r6 := fun hh => hn (by rw [e]; simp [hh])
  have e' : t = ('o' :: (s ++ (d ++ (s' ++ (n ++ s''))))) ++ r6 := by rw [e]; simp
  have ht' : LastTight r6 := by
    rw [e'] at ht
    exact ht.suffix
  have hi' : readNat d ≤ usizeMax ∧ i = readNat d := by
    by_cases hq : readNat d ≤ usizeMax
    · rw [if_pos hq] at hi; injection hi with hi; exact ⟨hq, hi.symm⟩
    · rw [if_neg hq] at hi; cases hi
  rcases clause_inv hns hn' ht' (cutErr_inv h7) with ⟨e3, _⟩ | ⟨b, hb⟩
  · exfalso
    rw [e', e3, List.append_nil, show ('o' :: (s ++ (d ++ (s' ++ (n ++ s''))))) = ('o' :: (s ++ (d ++ (s' ++ n)))) ++ s'' by simp] at ht
    exact lastTight_sep hs'' ht
  · rw [e, hi'.2]
    exact .soft hd hi'.1 hw hm (fun x hx => space_iff.1 (hs x hx)) hs' hs'' hb

theorem mcnf_exact : ExactLine McnfLineRead mcnfLine := by
  constructor
  · intro a t h
    cases h with
    | hard hs h => exact line_tight (p := ['h']) (by simp) (by decide) hs h
    | @soft b d w c n s s' s'' t hd hi hw hm hs hs' hs'' h =>
      have h1 := line_tight (p := n) hw.chars.1 hw.chars.2.1 hs'' h
      have hnl : '\n' ∉ s := fun hm => by rcases hs _ hm with e | e <;> cases e
      have hnd : '\n' ∉ d := fun hm => by have := hd.all _ hm; revert this; decide
      refine ⟨⟨fun x r e => by cases e; decide, ?_⟩, by simp, ?_⟩
      · intro x r e
        rcases List.eq_nil_or_concat t with e' | ⟨r', y, e'⟩
        · exact absurd e' h.ne_nil
        · have e' : t = r' ++ [y] := by simpa using e'
          have : x = y := by
            rw [e'] at e
            have e2 := congrArg List.getLast? e
            rw [show 'o' :: (s ++ (d ++ (s' ++ (n ++ (s'' ++ (r' ++ [y])))))) = ('o' :: (s ++ (d ++ (s' ++ (n ++ (s'' ++ r')))))) ++ [y] by simp] at e2
            rw [List.getLast?_concat, List.getLast?_concat] at e2
            exact (Option.some.inj e2).symm
          subst this
          exact h.lastTight x r' e'
      · have h2 : '\n' ∉ n ++ (s'' ++ t) := h1.2.2
        have h3 := hs'.newline
        simp only [List.mem_cons, List.mem_append, not_or] at h2 ⊢
        exact ⟨by decide, hnl, hnd, h3, h2⟩
    | comment h => exact comment_line_tight h
  · intro a t ht hne hn
    constructor
    · intro h
      rcases alt_inv (parse_inv h) with h | h
      · obtain ⟨u, h1, rfl⟩ := map_inv h
        obtain ⟨rfl, r, e, hr⟩ := comment_inv hn h1
        subst e
        exact .comment ⟨hn, hr, ht.last⟩
      · rcases alt_inv h with h | h
        · obtain ⟨c, h1, rfl⟩ := map_inv h
          obtain ⟨b, s, u, h2, h3, rfl⟩ := hard_inv hn ht.last h1
          exact .hard h2 h3
        · obtain ⟨⟨i, w, c⟩, h1, rfl⟩ := map_inv h
          exact moSoft_inv hn ht.last h1
    · intro h
      apply parse_ok
      cases h with
      | hard hs h =>
        rw [mcnfLine, alt_back (map_back (comment_back (by decide)))]
        exact alt_ok (map_ok (hard_line hs h))
      | @soft b d w c n s s' s'' t hd hi hw hm hs hs' hs'' h =>
        rw [mcnfLine, alt_back (map_back (comment_back (by decide))), alt_back (map_back (hardClause_back (by decide)))]
        refine map_ok (f := fun p : Nat × Nat × Clause => McnfData.soft p.1 p.2.1 p.2.2) (a := (readNat d, w, c)) ?_
        have hdn : NoHead isSpace (d ++ (s' ++ (n ++ (s'' ++ t)))) := by
          obtain ⟨x, r, e, hx⟩ := hd.head
          rw [e]; exact noHead_cons (isSpace_of_isDigit hx)
        have hnn : NoHead isSpace (n ++ (s'' ++ t)) :=
          noHead_append hw.chars.1 fun x hx => notSpace_of_notWs (hw.chars.2.1 x hx)
        have hobj : objIdx (d ++ (s' ++ (n ++ (s'' ++ t)))) = .ok (readNat d) (s' ++ (n ++ (s'' ++ t))) :=
          tryMap_ok (hd.ok (hs'.noDigit _)) (by rw [if_pos hi])
        rw [moSoftClause, seqP_ok char_ok, seqP_ok (space0_ok (fun x hx => space_iff.2 (hs x hx)) hdn),
          seqP_ok (cutErr_ok hobj), seqP_ok (cutErr_ok (space1_ok hs'.1 hs'.space hnn))]
        rw [weight, seqP_ok (cutErr_ok (hw.ok hm (hs''.noDigit t))), seqP_ok (cutErr_ok (space1_ok hs''.1 hs''.space h.noSpace)),
          seqP_ok (cutErr_ok (clause_line h))]
        rfl
      | comment h => exact alt_ok (map_ok (comment_ok h))

end RustSat.DimacsSpec
