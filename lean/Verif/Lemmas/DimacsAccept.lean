import Verif.Spec.DimacsAccept
import Verif.Lemmas.SolverOutput
import Verif.Lemmas.ClusteringInput
/-
Inversion of the DIMACS parsers (C94).
-/
namespace RustSat.DimacsSpec
open Text P Dimacs
open Clustering (seqP_inv map_inv alt_inv opt_inv cutErr_inv sat_inv takeWhile_all digit0_inv)
variable {α β : Type}

theorem noHead_dropWhile (f : Char → Bool) : ∀ s : Text, NoHead f (s.dropWhile f)
  | [] => noHead_nil f
  | c :: s => by
    rw [List.dropWhile_cons]
    cases hc : f c with
    | true => exact noHead_dropWhile f s
    | false => exact noHead_cons hc

theorem space_iff {c : Char} : isSpace c = true ↔ c = ' ' ∨ c = '\t' := by simp [isSpace]

theorem space0_inv {s r : Text} {u : Unit} (h : space0 s = .ok u r) :
    ∃ w, (∀ c ∈ w, isSpace c = true) ∧ s = w ++ r ∧ NoHead isSpace r := by
  cases h
  exact ⟨s.takeWhile isSpace, takeWhile_all s, List.takeWhile_append_dropWhile.symm, noHead_dropWhile _ _⟩

theorem space1_inv {s r : Text} {u : Unit} (h : space1 s = .ok u r) : ∃ w, Sep w ∧ s = w ++ r ∧ NoHead isSpace r := by
  cases s with
  | nil => cases h
  | cons c s =>
    unfold space1 at h
    simp only at h
    by_cases hc : isSpace c = true
    · rw [if_pos hc] at h
      cases h
      refine ⟨c :: s.takeWhile isSpace, ⟨by simp, ?_⟩, ?_, noHead_dropWhile _ _⟩
      · intro d hd
        rcases List.mem_cons.1 hd with rfl | hd
        · exact space_iff.1 hc
        · exact space_iff.1 (takeWhile_all s d hd)
      · rw [List.cons_append, List.takeWhile_append_dropWhile]
    · rw [if_neg hc] at h; cases h

theorem tryMap_inv {f : α → Option β} {p : P α} {s r : Text} {b : β} (h : tryMap f p s = .ok b r) :
    ∃ a, p s = .ok a r ∧ f a = some b := by
  unfold tryMap at h
  cases hp : p s with
  | ok a r' =>
    rw [hp] at h
    simp only at h
    cases hf : f a with
    | some b' => rw [hf] at h; cases h; exact ⟨a, rfl, hf⟩
    | none => rw [hf] at h; cases h
  | back => rw [hp] at h; cases h
  | cut => rw [hp] at h; cases h
  | panic => rw [hp] at h; cases h

theorem char_inv {c d : Char} {s r : Text} (h : char c s = .ok d r) : s = c :: r := by
  obtain ⟨h1, h2⟩ := sat_inv h
  have : d = c := by simpa using h2
  rw [h1, this]

theorem digits_inv {s r d : Text} (h : (seqP (sat isDigit19) fun c => map (fun r => c :: r) digit0) s = .ok d r) :
    Digits d ∧ s = d ++ r ∧ NoHead isDigit r := by
  obtain ⟨c, r', h1, h2⟩ := seqP_inv h
  obtain ⟨h3, h4⟩ := sat_inv h1
  obtain ⟨x, h5, rfl⟩ := map_inv h2
  cases h5
  refine ⟨⟨c, _, rfl, h4, takeWhile_all r'⟩, ?_, noHead_dropWhile _ _⟩
  rw [h3, List.cons_append, List.takeWhile_append_dropWhile]

theorem Digits.ok {d s : Text} (h : Digits d) (hs : NoHead isDigit s) :
    (seqP (sat isDigit19) fun c => map (fun r => c :: r) digit0) (d ++ s) = .ok d s := by
  obtain ⟨c, r, rfl, h1, h2⟩ := h
  rw [List.cons_append, seqP_ok (sat_ok h1)]
  exact map_ok (digit0_ok h2 hs)

theorem Digits.head {d : Text} (h : Digits d) : ∃ c r, d = c :: r ∧ isDigit c = true := by
  obtain ⟨c, r, rfl, h1, h2⟩ := h
  exact ⟨c, r, rfl, isDigit_of_isDigit19 h1⟩

theorem Digits.all {d : Text} (h : Digits d) : ∀ c ∈ d, isDigit c = true := by
  obtain ⟨c, r, rfl, h1, h2⟩ := h
  intro x hx
  rcases List.mem_cons.1 hx with rfl | hx
  · exact isDigit_of_isDigit19 h1
  · exact h2 x hx

theorem decUint_inv {max n : Nat} {s r : Text} (h : decUint max s = .ok n r) :
    n ≤ max ∧ ∃ t, NatText n t ∧ s = t ++ r := by
  obtain ⟨d, h1, h2⟩ := tryMap_inv h
  by_cases hm : readNat d ≤ max
  · rw [if_pos hm] at h2
    cases h2
    refine ⟨hm, ?_⟩
    obtain ⟨o, r', h3, h4⟩ := seqP_inv h1
    have hd : (d = ['0'] ∨ Digits d) ∧ r' = d ++ r := by
      rcases alt_inv h4 with h4 | h4
      · obtain ⟨e1, e2, _⟩ := digits_inv h4
        exact ⟨Or.inr e1, e2⟩
      · obtain ⟨c, h5, rfl⟩ := map_inv h4
        exact ⟨Or.inl rfl, char_inv h5⟩
    rcases opt_inv h3 with ⟨c, rfl, h5⟩ | ⟨rfl, rfl⟩
    · exact ⟨'+' :: d, ⟨d, hd.1, rfl, Or.inr rfl⟩, by rw [char_inv h5, hd.2]; rfl⟩
    · exact ⟨d, ⟨d, hd.1, rfl, Or.inl rfl⟩, hd.2⟩
  · rw [if_neg hm] at h2; cases h2

theorem digit_ne_sign {c : Char} (h : isDigit c = true) : c ≠ '+' ∧ c ≠ '-' :=
  ⟨ne_of_isDigit h (by decide), ne_of_isDigit h (by decide)⟩

theorem NatText.ok {max n : Nat} {t s : Text} (h : NatText n t) (hm : n ≤ max) (hs : NoHead isDigit s) :
    decUint max (t ++ s) = .ok n s := by
  obtain ⟨d, hd, rfl, ht⟩ := h
  have hdig : alt (seqP (sat isDigit19) fun c => map (fun r => c :: r) digit0) (map (fun _ => ['0']) (char '0')) (d ++ s) = .ok d s := by
    rcases hd with rfl | hd
    · rw [List.cons_append, List.nil_append, alt_back (seqP_back (sat_back (by decide)))]
      exact map_ok char_ok
    · exact alt_ok (hd.ok hs)
  have hh : ∃ c r, d = c :: r ∧ isDigit c = true := by
    rcases hd with rfl | hd
    · exact ⟨'0', [], rfl, by decide⟩
    · exact hd.head
  refine tryMap_ok (a := d) ?_ (by rw [if_pos hm])
  rcases ht with rfl | rfl
  · obtain ⟨c, r, e, hc⟩ := hh
    have : char '+' (t ++ s) = .back := by rw [e]; exact char_back (digit_ne_sign hc).1
    rw [seqP_ok (opt_back this)]
    exact hdig
  · rw [List.cons_append, seqP_ok (opt_ok char_ok)]
    exact hdig

theorem IntText.ne_zero {n : Int} {t : Text} (h : IntText n t) : t ≠ ['0'] := by
  intro e
  cases h with
  | plain hd => obtain ⟨c, r, e', h1, h2⟩ := hd; rw [e'] at e; cases e; revert h1; decide
  | plus hd => cases e
  | minus hd => cases e

theorem decInt_inv {min max n : Int} {s r : Text} (h : decInt min max s = .ok n r) :
    (min ≤ n ∧ n ≤ max) ∧ ((∃ t, IntText n t ∧ s = t ++ r ∧ NoHead isDigit r) ∨ (n = 0 ∧ s = '0' :: r)) := by
  obtain ⟨⟨g, d⟩, h1, h2⟩ := tryMap_inv h
  simp only at h2
  by_cases hm : min ≤ (if g = true then -(readNat d : Int) else (readNat d : Int)) ∧ (if g = true then -(readNat d : Int) else (readNat d : Int)) ≤ max
  · rw [if_pos hm] at h2
    injection h2 with h2
    rw [h2] at hm
    refine ⟨hm, ?_⟩
    rcases alt_inv h1 with h1 | h1
    · left
      obtain ⟨o, r', h3, h4⟩ := seqP_inv h1
      obtain ⟨q, h5, rfl⟩ := map_inv h3
      obtain ⟨c, r'', h6, h7⟩ := seqP_inv h4
      obtain ⟨x, h8, h9⟩ := map_inv h7
      have hg : g = (q == some '-') := (Prod.mk.inj h9).1
      have hd : d = c :: x := (Prod.mk.inj h9).2
      obtain ⟨e1, e2, e3⟩ := digits_inv (s := r') (r := r) (d := d) (by rw [seqP_ok h6, hd]; exact map_ok h8)
      rcases opt_inv h5 with ⟨y, rfl, h10⟩ | ⟨rfl, rfl⟩
      · rcases alt_inv h10 with h10 | h10
        · obtain ⟨e4, e5⟩ := sat_inv h10
          have : y = '+' := by simpa using e5
          subst this
          rw [show g = false from hg] at h2
          refine ⟨'+' :: d, ?_, by rw [e4, e2]; rfl, e3⟩
          rw [← h2]
          exact .plus e1
        · obtain ⟨e4, e5⟩ := sat_inv h10
          have : y = '-' := by simpa using e5
          subst this
          rw [show g = true from hg] at h2
          refine ⟨'-' :: d, ?_, by rw [e4, e2]; rfl, e3⟩
          rw [← h2]
          exact .minus e1
      · rw [show g = false from hg] at h2
        refine ⟨d, ?_, e2, e3⟩
        rw [← h2]
        exact .plain e1
    · right
      obtain ⟨c, h3, h4⟩ := map_inv h1
      cases h4
      exact ⟨h2.symm, char_inv h3⟩
  · rw [if_neg hm] at h2; cases h2

theorem IntText.ok {min max n : Int} {t s : Text} (h : IntText n t) (hm : min ≤ n ∧ n ≤ max) (hs : NoHead isDigit s) :
    decInt min max (t ++ s) = .ok n s := by
  rw [decInt]
  cases h with
  | @plain d hd =>
    obtain ⟨c, r, e, hc⟩ := hd.head
    obtain ⟨c', r', e1, e2, e3⟩ := id hd
    refine tryMap_ok (a := (false, t)) ?_ ?_
    · apply alt_ok
      rw [seqP_ok (map_ok (opt_back (by
          rw [e]
          rw [List.cons_append, alt_back (char_back (digit_ne_sign hc).1)]
          exact char_back (digit_ne_sign hc).2)))]
      rw [e1, List.cons_append, seqP_ok (sat_ok e2)]
      exact map_ok (digit0_ok e3 hs)
    · simp only [Bool.false_eq_true, if_false]
      rw [if_pos hm]
  | @plus d hd =>
    obtain ⟨c', r', e1, e2, e3⟩ := id hd
    refine tryMap_ok (a := (false, d)) ?_ ?_
    · apply alt_ok
      rw [List.cons_append, seqP_ok (map_ok (opt_ok (alt_ok char_ok)))]
      rw [e1, List.cons_append, seqP_ok (sat_ok e2)]
      exact map_ok (digit0_ok e3 hs)
    · simp only [Bool.false_eq_true, if_false]
      rw [if_pos hm]
  | @minus d hd =>
    obtain ⟨c', r', e1, e2, e3⟩ := id hd
    refine tryMap_ok (a := (true, d)) ?_ ?_
    · apply alt_ok
      rw [List.cons_append, seqP_ok (map_ok (opt_ok (by rw [alt_back (char_back (by decide))]; exact char_ok)))]
      rw [e1, List.cons_append, seqP_ok (sat_ok e2)]
      exact map_ok (digit0_ok e3 hs)
    · simp only [if_true]
      rw [if_pos hm]

theorem fromIpasir_inv {n : Int} {l : Lit} (h : Lit.fromIpasir n = .ok l) : number l = n := by
  unfold Lit.fromIpasir at h
  by_cases h0 : n = 0
  · rw [if_pos h0] at h; cases h
  · rw [if_neg h0, Lit.newWithError] at h
    by_cases h1 : n.natAbs - 1 > maxVarIdx
    · rw [if_pos h1] at h; cases h
    · rw [if_neg h1] at h
      cases h
      rw [number, Lit.isNeg_mk', Lit.var_mk']
      by_cases hn : n < 0
      · rw [if_pos (by simpa using hn)]; omega
      · rw [if_neg (by simpa using hn)]; omega

theorem fromIpasir_fits {l : Lit} (h : Fits l) : Lit.fromIpasir (number l) = .ok l := by
  have hl : Lit.mk' l.var l.isNeg = l := Lit.mk'_var_isNeg l
  have hm : maxVarIdx = 2147483647 := rfl
  unfold Fits at h
  unfold number at h ⊢
  rw [Lit.fromIpasir]
  cases hn : l.isNeg with
  | true =>
    rw [hn] at h hl
    simp only [if_true] at h ⊢
    rw [if_neg (by omega), Lit.newWithError, if_neg (by omega), decide_eq_true (by omega)]
    rw [show (-((l.var : Int) + 1)).natAbs - 1 = l.var from by omega, hl]
  | false =>
    rw [hn] at h hl
    simp only [Bool.false_eq_true, if_false] at h ⊢
    rw [if_neg (by omega), Lit.newWithError, if_neg (by omega), decide_eq_false (by omega)]
    rw [show ((l.var : Int) + 1).natAbs - 1 = l.var from by omega, hl]

theorem lit_inv {s r : Text} {l : Lit} (h : lit s = .ok l r) :
    Fits l ∧ ∃ t, IntText (number l) t ∧ s = t ++ r ∧ NoHead isDigit r := by
  obtain ⟨n, h1, h2⟩ := tryMap_inv h
  have hn : Lit.fromIpasir n = .ok l := by
    cases hf : Lit.fromIpasir n with
    | ok l' => rw [hf] at h2; cases h2; rfl
    | err e => rw [hf] at h2; cases h2
    | panic => rw [hf] at h2; cases h2
  have e := fromIpasir_inv hn
  obtain ⟨hr, hh⟩ := decInt_inv h1
  subst e
  refine ⟨hr, ?_⟩
  rcases hh with hh | ⟨h0, _⟩
  · exact hh
  · exfalso
    rw [h0] at hn
    cases hn

theorem lit_fits {s t : Text} {l : Lit} (hl : Fits l) (ht : IntText (number l) t) (hs : NoHead isDigit s) : lit (t ++ s) = .ok l s :=
  tryMap_ok (ht.ok hl hs) (by simp only [fromIpasir_fits hl])

/-- Literals after the first one. -/
inductive LitTail : Clause → Text → Prop where
  | nil : LitTail [] []
  | cons {l c s t u} : Sep s → Fits l → IntText (number l) t → LitTail c u → LitTail (l :: c) (s ++ (t ++ u))

theorem sepLoop_inv : ∀ (f : Nat) {s r : Text} {c : Clause}, NoHead isDigit s → sepLoop lit space1 f s = .ok c r →
    NoHead isDigit r ∧ ∃ u, LitTail c u ∧ s = u ++ r
  | 0, s, r, c, hs, h => by cases h; exact ⟨hs, [], .nil, rfl⟩
  | f + 1, s, r, c, hs, h => by
    unfold sepLoop at h
    cases h1 : space1 s with
    | back => rw [h1] at h; cases h; exact ⟨hs, [], .nil, rfl⟩
    | cut => rw [h1] at h; cases h
    | panic => rw [h1] at h; cases h
    | ok x r1 =>
      rw [h1] at h
      simp only at h
      cases h2 : lit r1 with
      | back => rw [h2] at h; cases h; exact ⟨hs, [], .nil, rfl⟩
      | cut => rw [h2] at h; cases h
      | panic => rw [h2] at h; cases h
      | ok l r2 =>
        rw [h2] at h
        simp only at h
        obtain ⟨w, hw, e1, _⟩ := space1_inv h1
        obtain ⟨hl, t, ht, e2, e3⟩ := lit_inv h2
        cases h3 : sepLoop lit space1 f r2 with
        | ok c' r3 =>
          rw [h3] at h
          cases h
          obtain ⟨e4, u, hu, e5⟩ := sepLoop_inv f e3 h3
          exact ⟨e4, _, .cons hw hl ht hu, by rw [e1, e2, e5]; simp⟩
        | back => rw [h3] at h; cases h
        | cut => rw [h3] at h; cases h
        | panic => rw [h3] at h; cases h

theorem separated_inv {s r : Text} {c : Clause} (h : separated0 lit space1 s = .ok c r) :
    (c = [] ∧ r = s) ∨ ∃ l c' t u, c = l :: c' ∧ Fits l ∧ IntText (number l) t ∧ LitTail c' u ∧ s = t ++ (u ++ r) ∧ NoHead isDigit r := by
  unfold separated0 at h
  cases h1 : lit s with
  | back => rw [h1] at h; cases h; exact Or.inl ⟨rfl, rfl⟩
  | cut => rw [h1] at h; cases h
  | panic => rw [h1] at h; cases h
  | ok l r1 =>
    rw [h1] at h
    simp only at h
    obtain ⟨hl, t, ht, e2, e3⟩ := lit_inv h1
    cases h3 : sepLoop lit space1 s.length r1 with
    | ok c' r3 =>
      rw [h3] at h
      cases h
      obtain ⟨e4, u, hu, e5⟩ := sepLoop_inv _ e3 h3
      exact Or.inr ⟨l, c', t, u, rfl, hl, ht, hu, by rw [e2, e5], e4⟩
    | back => rw [h3] at h; cases h
    | cut => rw [h3] at h; cases h
    | panic => rw [h3] at h; cases h

/-- The last character is not white space. -/
def LastTight (s : Text) : Prop := ∀ c r, s = r ++ [c] → isWs c = false

theorem LastTight.suffix {p s : Text} (h : LastTight (p ++ s)) : LastTight s := fun c r e => h c (p ++ r) (by rw [e]; simp)

theorem lastTight_space {w : Text} (hw : ∀ c ∈ w, isSpace c = true) (h : LastTight w) : w = [] := by
  rcases List.eq_nil_or_concat w with e | ⟨r, c, e⟩
  · exact e
  · exfalso
    have e' : w = r ++ [c] := by simpa using e
    have h1 := h c r e'
    have h2 := isWs_of_isSpace (hw c (by rw [e']; simp))
    rw [h1] at h2
    cases h2

theorem tag_inv {x s r : Text} {u : Unit} (h : tag x s = .ok u r) : s = x ++ r := by
  unfold tag at h
  by_cases hp : x.isPrefixOf s = true
  · rw [if_pos hp] at h
    cases h
    obtain ⟨r', e⟩ := List.isPrefixOf_iff_prefix.1 hp
    rw [← e]; simp
  · rw [if_neg hp] at h; cases h

theorem lineEnding_inv {s r : Text} {u : Unit} (h : lineEnding s = .ok u r) : '\n' ∈ s := by
  rcases alt_inv h with h | h
  · rw [tag_inv h]; simp
  · rw [tag_inv h]; simp

theorem ending_inv {s : Text} {u : Unit} (hn : '\n' ∉ s) (h : alt lineEnding eof s = .ok u []) : s = [] := by
  rcases alt_inv h with h | h
  · exact absurd (lineEnding_inv h) hn
  · unfold eof at h
    cases s with
    | nil => rfl
    | cons c s => cases h

theorem clauseEnding_inv {s : Text} {u : Unit} (hn : '\n' ∉ s) (ht : LastTight s) (h : clauseEnding s = .ok u []) :
    s = [] ∨ ∃ w, (∀ c ∈ w, isSpace c = true) ∧ s = w ++ ['0'] := by
  rcases alt_inv h with h | h
  · left
    obtain ⟨_, r, h1, h2⟩ := seqP_inv h
    obtain ⟨w, hw, e, _⟩ := space0_inv h1
    have hr : r = [] := ending_inv (fun hh => hn (by rw [e]; exact List.mem_append_right _ hh)) h2
    rw [hr, List.append_nil] at e
    rw [e] at ht ⊢
    exact lastTight_space hw ht
  · right
    obtain ⟨_, r, h1, h2⟩ := seqP_inv h
    obtain ⟨w, hw, e, _⟩ := space0_inv h1
    obtain ⟨_, r', h3, h4⟩ := seqP_inv h2
    have e' := char_inv h3
    subst e'
    have ht' : LastTight r' := by
      rw [e, show w ++ '0' :: r' = (w ++ ['0']) ++ r' by simp] at ht
      exact ht.suffix
    have hn' : '\n' ∉ r' := fun hh => hn (by rw [e]; exact List.mem_append_right _ (List.mem_cons_of_mem _ hh))
    have hr : r' = [] := by
      rcases alt_inv h4 with h4 | h4
      · obtain ⟨_, r2, h5, h6⟩ := seqP_inv h4
        obtain ⟨w2, hw2, e2, _⟩ := space0_inv h5
        have hr : r2 = [] := ending_inv (fun hh => hn' (by rw [e2]; exact List.mem_append_right _ hh)) h6
        rw [hr, List.append_nil] at e2
        rw [e2] at ht' ⊢
        exact lastTight_space hw2 ht'
      · obtain ⟨w2, hw2, e2, _⟩ := space1_inv h4
        rw [List.append_nil] at e2
        rw [e2] at ht' ⊢
        exact lastTight_space hw2.space ht'
    rw [hr] at e
    exact ⟨w, hw, e⟩

theorem LitTail.line {c : Clause} {u : Text} (h : LitTail c u) : ∀ {l t}, Fits l → IntText (number l) t → ClauseLine false (l :: c) (t ++ u) := by
  induction h with
  | nil => intro l t hl ht; rw [List.append_nil]; exact .last hl ht
  | cons hs hl ht _ ih => intro l t hl' ht'; exact .cons hl' ht' hs (ih hl ht)

theorem LitTail.lineZero {c : Clause} {u : Text} (h : LitTail c u) : ∀ {l t w}, Fits l → IntText (number l) t → Sep w →
    ClauseLine true (l :: c) (t ++ (u ++ (w ++ ['0']))) := by
  induction h with
  | nil => intro l t w hl ht hw; rw [List.nil_append]; exact .cons hl ht hw .zero
  | @cons l' c s t' u' hs hl ht _ ih =>
    intro l t w hl' ht' hw
    have := ClauseLine.cons hl' ht' hs (ih hl ht hw)
    rw [show s ++ (t' ++ u') ++ (w ++ ['0']) = s ++ (t' ++ (u' ++ (w ++ ['0']))) by simp]
    exact this

theorem clause_inv {s : Text} {c : Clause} (hs : NoHead isSpace s) (hn : '\n' ∉ s) (ht : LastTight s) (h : clause s = .ok c []) :
    (s = [] ∧ c = []) ∨ ∃ b, ClauseLine b c s := by
  obtain ⟨c', r, h1, h2⟩ := seqP_inv h
  obtain ⟨_, r', h3, h4⟩ := seqP_inv h2
  cases h4
  rcases separated_inv h1 with ⟨rfl, rfl⟩ | ⟨l, c1, t, u, rfl, hl, hlt, hu, e, hd⟩
  · rcases clauseEnding_inv hn ht h3 with rfl | ⟨w, hw, e⟩
    · exact Or.inl ⟨rfl, rfl⟩
    · right
      cases w with
      | nil => exact ⟨true, by rw [e]; exact .zero⟩
      | cons x w =>
        have := hs x (w ++ ['0']) (by rw [e]; rfl)
        rw [hw x List.mem_cons_self] at this
        cases this
  · have hr : LastTight r := by
      rw [e, ← List.append_assoc] at ht
      exact ht.suffix
    have hn' : '\n' ∉ r := fun hh => hn (by rw [e]; simp [hh])
    right
    rcases clauseEnding_inv hn' hr h3 with rfl | ⟨w, hw, e2⟩
    · refine ⟨false, ?_⟩
      rw [e, List.append_nil]
      exact hu.line hl hlt
    · refine ⟨true, ?_⟩
      rw [e, e2]
      have hw0 : w ≠ [] := by
        intro h0
        rw [e2, h0] at hd
        have := hd '0' [] rfl
        revert this; decide
      exact hu.lineZero hl hlt ⟨hw0, fun c hc => space_iff.1 (hw c hc)⟩


/-! ### Accepted clauses are parsed -/

theorem IntText.noSpace {n : Int} {t : Text} (h : IntText n t) : t ≠ [] ∧ ∀ c ∈ t, isWs c = false := by
  have hd : ∀ {d : Text}, Digits d → ∀ c ∈ d, isWs c = false := fun hd c hc => isWs_of_isDigit (hd.all c hc)
  cases h with
  | plain h =>
    obtain ⟨c, r, e, _⟩ := id h
    exact ⟨by rw [e]; simp, hd h⟩
  | plus h =>
    refine ⟨by simp, ?_⟩
    intro c hc
    rcases List.mem_cons.1 hc with rfl | hc
    · decide
    · exact hd h c hc
  | minus h =>
    refine ⟨by simp, ?_⟩
    intro c hc
    rcases List.mem_cons.1 hc with rfl | hc
    · decide
    · exact hd h c hc

theorem IntText.head {n : Int} {t : Text} (h : IntText n t) : ∀ x r, t = x :: r → isDigit x = true ∨ x = '+' ∨ x = '-' := by
  intro x r e
  cases h with
  | plain h =>
    obtain ⟨c, r', e', hc⟩ := h.head
    rw [e'] at e; cases e; exact Or.inl hc
  | plus h => cases e; exact Or.inr (Or.inl rfl)
  | minus h => cases e; exact Or.inr (Or.inr rfl)

theorem notSpace_of_notWs {c : Char} (h : isWs c = false) : isSpace c = false := by
  cases hs : isSpace c with
  | false => rfl
  | true => rw [isWs_of_isSpace hs] at h; cases h

theorem ClauseLine.ne_nil {b : Bool} {c : Clause} {t : Text} (h : ClauseLine b c t) : t ≠ [] := by
  cases h with
  | zero => simp
  | last _ h => exact h.noSpace.1
  | cons _ h _ _ => simp [h.noSpace.1]

theorem ClauseLine.head {b : Bool} {c : Clause} {t : Text} (h : ClauseLine b c t) :
    ∀ x r, t = x :: r → isWs x = false ∧ (isDigit x = true ∨ x = '+' ∨ x = '-') := by
  intro x r e
  have key : ∀ {n : Int} {u v : Text}, IntText n u → u ++ v = x :: r → isWs x = false ∧ (isDigit x = true ∨ x = '+' ∨ x = '-') := by
    intro n u v hu e
    cases u with
    | nil => exact absurd rfl hu.noSpace.1
    | cons y u =>
      have : y = x := by simpa using congrArg List.head? e
      subst this
      exact ⟨hu.noSpace.2 _ List.mem_cons_self, hu.head _ _ rfl⟩
  cases h with
  | zero => cases e; exact ⟨by decide, Or.inl (by decide)⟩
  | last _ h => exact key (v := []) h (by rw [List.append_nil, e])
  | cons _ h _ _ => exact key h e

theorem ClauseLine.noSpace {b : Bool} {c : Clause} {t : Text} (h : ClauseLine b c t) : NoHead isSpace t :=
  fun x r e => notSpace_of_notWs (h.head x r e).1

theorem ClauseLine.lastTight {b : Bool} {c : Clause} {t : Text} (h : ClauseLine b c t) : LastTight t := by
  have key : ∀ {n : Int} {u : Text}, IntText n u → LastTight u := fun hu c r e => hu.noSpace.2 c (by rw [e]; simp)
  induction h with
  | zero => exact snoc_last (r := []) rfl
  | last _ h => exact key h
  | @cons b l c t s u _ h _ hu ih =>
    intro x r e
    rcases List.eq_nil_or_concat u with e' | ⟨r', y, e'⟩
    · exact absurd e' hu.ne_nil
    · have e' : u = r' ++ [y] := by simpa using e'
      have : x = y := by
        rw [e'] at e
        have := congrArg List.getLast? e
        simpa using this.symm
      subst this
      exact ih x r' e'

theorem ClauseLine.newline {b : Bool} {c : Clause} {t : Text} (h : ClauseLine b c t) : '\n' ∉ t ∧ '\r' ∉ t := by
  have key : ∀ {n : Int} {u : Text}, IntText n u → '\n' ∉ u ∧ '\r' ∉ u := fun hu =>
    ⟨fun hc => by have := hu.noSpace.2 _ hc; revert this; decide, fun hc => by have := hu.noSpace.2 _ hc; revert this; decide⟩
  induction h with
  | zero => decide
  | last _ h => exact key h
  | @cons b l c t s u _ h hs _ ih =>
    have hs' : '\r' ∉ s := fun hm => by rcases hs.2 _ hm with e | e <;> cases e
    simp only [List.mem_append, not_or]
    exact ⟨⟨(key h).1, hs.newline, ih.1⟩, ⟨(key h).2, hs', ih.2⟩⟩

theorem sepLoop_line {b : Bool} {c : Clause} {t : Text} (h : ClauseLine b c t) : ∀ (s : Text) (f : Nat), Sep s → t.length ≤ f →
    ∃ r, ((b = false ∧ r = []) ∨ (b = true ∧ ∃ s', Sep s' ∧ r = s' ++ ['0'])) ∧ sepLoop lit space1 f (s ++ t) = .ok c r := by
  induction h with
  | zero =>
    intro s f hs hf
    obtain ⟨f, rfl⟩ : ∃ g, f = g + 1 := ⟨f - 1, by simp at hf; omega⟩
    refine ⟨s ++ ['0'], Or.inr ⟨rfl, s, hs, rfl⟩, ?_⟩
    rw [sepLoop, space1_ok hs.1 hs.space (noHead_cons (by decide))]
    simp only [lit_zero]
  | @last l t hl ht =>
    intro s f hs hf
    have hlen : 0 < t.length := length_pos_of_ne ht.noSpace.1
    obtain ⟨f, rfl⟩ : ∃ g, f = g + 1 := ⟨f - 1, by omega⟩
    refine ⟨[], Or.inl ⟨rfl, rfl⟩, ?_⟩
    rw [sepLoop, space1_ok hs.1 hs.space (fun x r e => notSpace_of_notWs (ht.noSpace.2 x (by rw [e]; simp)))]
    have := lit_fits (s := []) hl ht (noHead_nil _)
    rw [List.append_nil] at this
    simp only [this]
    cases f with
    | zero => rfl
    | succ f => rfl
  | @cons b l c t s' u hl ht hs' hu ih =>
    intro s f hs hf
    have hlen : 0 < t.length := length_pos_of_ne ht.noSpace.1
    obtain ⟨f, rfl⟩ : ∃ g, f = g + 1 := ⟨f - 1, by simp at hf; omega⟩
    obtain ⟨r, hr, e⟩ := ih s' f hs' (by simp at hf; omega)
    refine ⟨r, hr, ?_⟩
    rw [sepLoop, space1_ok hs.1 hs.space (noHead_append ht.noSpace.1 fun x hx => notSpace_of_notWs (ht.noSpace.2 x hx))]
    simp only [lit_fits hl ht (hs'.noDigit u), e]

theorem clause_line {b : Bool} {c : Clause} {t : Text} (h : ClauseLine b c t) : clause t = .ok c [] := by
  rw [clause]
  cases h with
  | zero =>
    have : separated0 lit space1 ['0'] = .ok [] ['0'] := by rw [separated0, lit_zero]
    rw [seqP_ok this]
    rfl
  | @last l t hl ht =>
    have h1 := lit_fits (s := []) hl ht (noHead_nil _)
    rw [List.append_nil] at h1
    have : separated0 lit space1 t = .ok [l] [] := by
      rw [separated0, h1]
      simp only
      cases t.length with
      | zero => rfl
      | succ f => rfl
    rw [seqP_ok this]
    rfl
  | @cons b l c t s u hl ht hs hu =>
    obtain ⟨r, hr, e⟩ := sepLoop_line hu s (t ++ (s ++ u)).length hs (by simp; omega)
    have : separated0 lit space1 (t ++ (s ++ u)) = .ok (l :: c) r := by
      rw [separated0, lit_fits hl ht (hs.noDigit u)]
      simp only [e]
    rw [seqP_ok this]
    rcases hr with ⟨_, rfl⟩ | ⟨_, s', hs', rfl⟩
    · rfl
    · rw [seqP_ok (clauseEnding_ok hs'.space)]; rfl

/-! ### Comments -/

theorem comment_inv {s u : Text} (hn : '\n' ∉ s) (h : comment s = .ok u []) : u = s ∧ ∃ r, s = 'c' :: r ∧ '\r' ∉ s := by
  unfold comment taken at h
  cases hp : (seqP (char 'c') fun _ => seqP tillLineEnding fun _ => opt lineEnding) s with
  | back => rw [hp] at h; cases h
  | cut => rw [hp] at h; cases h
  | panic => rw [hp] at h; cases h
  | ok o r =>
    rw [hp] at h
    cases h
    refine ⟨by simp, ?_⟩
    obtain ⟨_, r1, h1, h2⟩ := seqP_inv hp
    have e1 := char_inv h1
    obtain ⟨a, r2, h3, h4⟩ := seqP_inv h2
    have hr2 : r2 = r1.dropWhile fun c => !(c == '\r' || c == '\n') := by
      unfold tillLineEnding at h3
      simp only at h3
      split at h3 <;> cases h3 <;> rfl
    have hm : ∀ x ∈ r2, x ∈ r1 := by rw [hr2]; exact fun x hx => (List.dropWhile_sublist _).subset hx
    have e2 : r2 = [] := by
      rcases opt_inv h4 with ⟨_, _, h5⟩ | ⟨_, h5⟩
      · exact absurd (hm _ (lineEnding_inv h5)) (fun hh => hn (by rw [e1]; exact List.mem_cons_of_mem _ hh))
      · exact h5.symm
    refine ⟨r1, e1, ?_⟩
    rw [e1]
    intro hc
    rcases List.mem_cons.1 hc with e | hc
    · cases e
    · rw [e2] at hr2
      have h6 : ∀ x ∈ r1, (!(x == '\r' || x == '\n')) = true := by
        have h7 := List.takeWhile_append_dropWhile (p := fun c => !(c == '\r' || c == '\n')) (l := r1)
        rw [← hr2, List.append_nil] at h7
        intro x hx
        rw [← h7] at hx
        exact takeWhile_all r1 x hx
      have := h6 _ hc
      revert this; decide

theorem comment_text {t : Text} (hn : '\n' ∉ t) (ht : LastTight t) {r : Text} (e : t = 'c' :: r) (hr : '\r' ∉ t) : CommentText ('c' :: r) := by
  subst e
  exact ⟨hn, hr, ht⟩

end RustSat.DimacsSpec
