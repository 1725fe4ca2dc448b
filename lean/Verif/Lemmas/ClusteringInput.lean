import Verif.Spec.ClusteringInput
import Verif.Lemmas.Text
/-
The parser of the input of the clustering encoding accepts exactly the lines of its format.
-/
namespace RustSat
namespace Clustering
open P Text
variable {α β : Type}

/-! ### Inversion of parsers -/

theorem seqP_inv {p : P α} {f : α → P β} {s r : Text} {b : β} (h : seqP p f s = .ok b r) : ∃ a r', p s = .ok a r' ∧ f a r' = .ok b r := by
  unfold seqP at h
  cases hp : p s with
  | ok a r' => rw [hp] at h; exact ⟨a, r', rfl, h⟩
  | back => rw [hp] at h; cases h
  | cut => rw [hp] at h; cases h
  | panic => rw [hp] at h; cases h

theorem map_inv {p : P α} {f : α → β} {s r : Text} {b : β} (h : map f p s = .ok b r) : ∃ a, p s = .ok a r ∧ b = f a := by
  obtain ⟨a, r', h1, h2⟩ := seqP_inv h
  cases h2
  exact ⟨a, h1, rfl⟩

theorem alt_inv {p q : P α} {s r : Text} {a : α} (h : alt p q s = .ok a r) : p s = .ok a r ∨ q s = .ok a r := by
  unfold alt at h
  cases hp : p s with
  | ok a' r' => rw [hp] at h; exact Or.inl h
  | back => rw [hp] at h; exact Or.inr h
  | cut => rw [hp] at h; cases h
  | panic => rw [hp] at h; cases h

theorem opt_inv {p : P α} {s r : Text} {o : Option α} (h : opt p s = .ok o r) : (∃ a, o = some a ∧ p s = .ok a r) ∨ (o = none ∧ r = s) := by
  unfold opt at h
  cases hp : p s with
  | ok a' r' => rw [hp] at h; cases h; exact Or.inl ⟨a', rfl, rfl⟩
  | back => rw [hp] at h; cases h; exact Or.inr ⟨rfl, rfl⟩
  | cut => rw [hp] at h; cases h
  | panic => rw [hp] at h; cases h

theorem cutErr_inv {p : P α} {s r : Text} {a : α} (h : cutErr p s = .ok a r) : p s = .ok a r := by
  unfold cutErr at h
  cases hp : p s with
  | ok a' r' => rw [hp] at h; exact h
  | back => rw [hp] at h; cases h
  | cut => rw [hp] at h; cases h
  | panic => rw [hp] at h; cases h

theorem sat_inv {f : Char → Bool} {s r : Text} {c : Char} (h : sat f s = .ok c r) : s = c :: r ∧ f c = true := by
  cases s with
  | nil => cases h
  | cons d s =>
    unfold sat at h
    simp only at h
    by_cases hd : f d = true
    · rw [if_pos hd] at h; cases h; exact ⟨rfl, hd⟩
    · rw [if_neg hd] at h; cases h

theorem takeWhile_all {f : Char → Bool} (s : Text) : ∀ c ∈ s.takeWhile f, f c = true := by
  induction s with
  | nil => intro c hc; cases hc
  | cons d s ih =>
    intro c hc
    rw [List.takeWhile_cons] at hc
    cases hd : f d with
    | false => rw [hd] at hc; cases hc
    | true =>
      rw [hd] at hc
      rcases List.mem_cons.1 hc with rfl | hc
      · exact hd
      · exact ih c hc

theorem while1_inv {f : Char → Bool} {s r d : Text}
    (h : (if (s.takeWhile f).isEmpty then PR.back else PR.ok (s.takeWhile f) (s.dropWhile f)) = .ok d r) :
    s = d ++ r ∧ d ≠ [] ∧ ∀ c ∈ d, f c = true := by
  by_cases he : (s.takeWhile f).isEmpty = true
  · rw [if_pos he] at h; cases h
  · rw [if_neg he] at h
    cases h
    exact ⟨List.takeWhile_append_dropWhile.symm, by simpa using he, takeWhile_all s⟩

theorem while1_ok {f : Char → Bool} {r d : Text} (hd : d ≠ []) (hf : ∀ c ∈ d, f c = true) (hr : NoHead f r) :
    (if ((d ++ r).takeWhile f).isEmpty then PR.back else PR.ok ((d ++ r).takeWhile f) ((d ++ r).dropWhile f)) = .ok d r := by
  rw [takeWhile_append hf hr, dropWhile_append hf hr, if_neg (by simpa using hd)]

theorem takeWhile_noHead {f : Char → Bool} {s : Text} (h : NoHead f s) : s.takeWhile f = [] := by
  cases s with
  | nil => rfl
  | cons c r => rw [List.takeWhile_cons, h c r rfl]; rfl

theorem while1_back {f : Char → Bool} {s : Text} (h : NoHead f s) :
    (if (s.takeWhile f).isEmpty then PR.back else PR.ok (s.takeWhile f) (s.dropWhile f)) = .back := by
  rw [takeWhile_noHead h]; rfl

theorem multi_inv {s r : Text} {u : Unit} (h : multispace1 s = .ok u r) : ∃ w, s = w ++ r ∧ GapText w := by
  unfold multispace1 at h
  by_cases he : (s.takeWhile isMultispace).isEmpty = true
  · rw [if_pos he] at h; cases h
  · rw [if_neg he] at h
    cases h
    exact ⟨_, List.takeWhile_append_dropWhile.symm, by simpa using he, takeWhile_all s⟩

theorem multi_ok {w r : Text} (h : GapText w) (hr : NoHead isMultispace r) : multispace1 (w ++ r) = .ok () r := by
  unfold multispace1
  rw [takeWhile_append h.2 hr, dropWhile_append h.2 hr, if_neg (by simpa using h.1)]

theorem digit1_inv {s r d : Text} (h : digit1 s = .ok d r) : s = d ++ r ∧ DigitsText d := while1_inv h

theorem digit1_ok {d r : Text} (h : DigitsText d) (hr : NoHead isDigit r) : digit1 (d ++ r) = .ok d r := while1_ok h.1 h.2 hr

theorem digit1_back {s : Text} (h : NoHead isDigit s) : digit1 s = .back := while1_back h

theorem digit0_inv {s r d : Text} (h : digit0 s = .ok d r) : s = d ++ r ∧ ∀ c ∈ d, isDigit c = true := by
  unfold digit0 at h
  cases h
  exact ⟨List.takeWhile_append_dropWhile.symm, takeWhile_all s⟩

/-! ### Soundness -/

theorem sign_inv {s r : Text} {n : Bool} (h : signP s = .ok n r) : ∃ t, s = t ++ r ∧ SignText n t := by
  obtain ⟨o, h1, rfl⟩ := map_inv h
  rcases opt_inv h1 with ⟨c, rfl, h2⟩ | ⟨rfl, rfl⟩
  · obtain ⟨rfl, h3⟩ := sat_inv h2
    refine ⟨[c], rfl, ?_⟩
    simp only [Bool.or_eq_true, beq_iff_eq] at h3
    rcases h3 with rfl | rfl
    · exact Or.inl ⟨Or.inr rfl, rfl⟩
    · exact Or.inr ⟨rfl, rfl⟩
  · exact ⟨[], rfl, Or.inl ⟨Or.inl rfl, rfl⟩⟩

theorem mantissa_inv {s r : Text} {m : Text × Text} (h : mantissaP s = .ok m r) : ∃ t, s = t ++ r ∧ MantissaText m.1 m.2 t := by
  rcases alt_inv h with h | h
  · obtain ⟨i, r', h1, h2⟩ := seqP_inv h
    obtain ⟨rfl, hi⟩ := digit1_inv h1
    obtain ⟨o, h3, rfl⟩ := map_inv h2
    rcases opt_inv h3 with ⟨f, rfl, h4⟩ | ⟨rfl, rfl⟩
    · obtain ⟨c, r'', h5, h6⟩ := seqP_inv h4
      obtain ⟨rfl, hc⟩ := sat_inv h5
      obtain ⟨rfl, hf⟩ := digit0_inv h6
      have : c = '.' := by simpa using hc
      subst this
      exact ⟨i ++ '.' :: f, by simp, Or.inr (Or.inl ⟨hi, hf, rfl⟩)⟩
    · exact ⟨i, rfl, Or.inl ⟨hi, rfl, rfl⟩⟩
  · obtain ⟨c, r'', h5, h6⟩ := seqP_inv h
    obtain ⟨rfl, hc⟩ := sat_inv h5
    obtain ⟨f, h7, rfl⟩ := map_inv h6
    obtain ⟨rfl, hf⟩ := digit1_inv h7
    have : c = '.' := by simpa using hc
    subst this
    exact ⟨'.' :: f, rfl, Or.inr (Or.inr ⟨rfl, hf, rfl⟩)⟩

theorem exponent_inv {s r : Text} {x : ℤ} (h : exponentP s = .ok x r) : ∃ t, s = t ++ r ∧ ExponentText x t := by
  obtain ⟨o, h1, rfl⟩ := map_inv h
  rcases opt_inv h1 with ⟨y, rfl, h2⟩ | ⟨rfl, rfl⟩
  · obtain ⟨c, r1, h3, h4⟩ := seqP_inv h2
    obtain ⟨rfl, hc⟩ := sat_inv h3
    obtain ⟨n, r2, h5, h6⟩ := seqP_inv h4
    obtain ⟨t, rfl, ht⟩ := sign_inv h5
    obtain ⟨d, h7, rfl⟩ := map_inv (cutErr_inv h6)
    obtain ⟨rfl, hd⟩ := digit1_inv h7
    refine ⟨c :: (t ++ d), by simp, Or.inr ⟨c, n, t, d, by simpa using hc, ht, hd, rfl, rfl⟩⟩
  · exact ⟨[], rfl, Or.inl ⟨rfl, rfl⟩⟩

theorem caseless_inv {t s r : Text} {u : Unit} (h : caseless t s = .ok u r) : ∃ w, s = w ++ r ∧ AnyCase t w := by
  unfold caseless at h
  by_cases he : (s.take t.length).map Char.toLower = t
  · rw [if_pos he] at h; cases h; exact ⟨_, (List.take_append_drop _ _).symm, he⟩
  · rw [if_neg he] at h; cases h

theorem number_inv {s r : Text} {v : NumberParts} (h : numberP s = .ok v r) : ∃ t, s = t ++ r ∧ NumberText v t := by
  rcases alt_inv h with h | h
  · obtain ⟨n, r1, h1, h2⟩ := seqP_inv h
    obtain ⟨t1, rfl, h3⟩ := sign_inv h1
    obtain ⟨m, r2, h4, h5⟩ := seqP_inv h2
    obtain ⟨t2, rfl, h6⟩ := mantissa_inv h4
    obtain ⟨x, h7, rfl⟩ := map_inv h5
    obtain ⟨t3, rfl, h8⟩ := exponent_inv h7
    exact ⟨t1 ++ (t2 ++ t3), by simp, t1, t2, t3, rfl, h3, h6, h8⟩
  rcases alt_inv h with h | h
  · obtain ⟨u, h1, rfl⟩ := map_inv h
    obtain ⟨w, rfl, hw⟩ := caseless_inv h1
    exact ⟨w, rfl, hw⟩
  rcases alt_inv h with h | h
  · obtain ⟨n, r1, h1, h2⟩ := seqP_inv h
    obtain ⟨t1, rfl, h3⟩ := sign_inv h1
    obtain ⟨u, h4, rfl⟩ := map_inv h2
    obtain ⟨w, rfl, hw⟩ := caseless_inv h4
    exact ⟨t1 ++ w, by simp, t1, w, rfl, h3, Or.inr hw⟩
  · obtain ⟨n, r1, h1, h2⟩ := seqP_inv h
    obtain ⟨t1, rfl, h3⟩ := sign_inv h1
    obtain ⟨u, h4, rfl⟩ := map_inv h2
    obtain ⟨w, rfl, hw⟩ := caseless_inv h4
    exact ⟨t1 ++ w, by simp, t1, w, rfl, h3, Or.inl hw⟩

theorem trimStart_split (s : Text) : ∃ p, s = p ++ trimStart s ∧ ∀ c ∈ p, isWs c = true :=
  ⟨s.takeWhile isWs, List.takeWhile_append_dropWhile.symm, takeWhile_all s⟩

theorem processLine_sound {l x y : Text} {v : NumberParts} (h : processLine l = some (x, y, v)) : EntryLine x y v l := by
  unfold processLine at h
  by_cases hc : startsWith ['%'] (trimStart l) = true
  · rw [if_pos hc] at h; cases h
  rw [if_neg hc] at h
  obtain ⟨p, hp, hw⟩ := trimStart_split l
  generalize trimStart l = s at h hp
  subst hp
  have h' : entryP s = .ok (x, y, v) [] := by
    unfold parse at h
    cases he : entryP s with
    | ok a r =>
      rw [he] at h
      cases r with
      | nil => simp only [Option.some.injEq] at h; rw [h]
      | cons => cases h
    | back => rw [he] at h; cases h
    | cut => rw [he] at h; cases h
    | panic => rw [he] at h; cases h
  obtain ⟨a, r1, h1, h2⟩ := seqP_inv h'
  obtain ⟨rfl, h3⟩ := while1_inv h1
  obtain ⟨u, r2, h4, h5⟩ := seqP_inv h2
  obtain ⟨w, rfl, h6⟩ := multi_inv h4
  obtain ⟨b, r3, h7, h8⟩ := seqP_inv h5
  obtain ⟨rfl, h9⟩ := while1_inv h7
  obtain ⟨u', r4, h10, h11⟩ := seqP_inv h8
  obtain ⟨w', rfl, h12⟩ := multi_inv h10
  obtain ⟨v', h13, h14⟩ := map_inv h11
  cases h14
  obtain ⟨t, rfl, h15⟩ := number_inv h13
  exact ⟨p, w, w', t, by simp, hw, h3, h9, h6, h12, h15⟩

/-! ### Completeness -/

theorem signChar_back {s : Text} (h : NoHead (fun c => c == '+' || c == '-') s) : sat (fun c => c == '+' || c == '-') s = .back := by
  cases s with
  | nil => rfl
  | cons c r => exact sat_back (h c r rfl)

theorem sign_ok {n : Bool} {t r : Text} (h : SignText n t) (hr : NoHead (fun c => c == '+' || c == '-') r) : signP (t ++ r) = .ok n r := by
  unfold signP
  rcases h with ⟨rfl | rfl, rfl⟩ | ⟨rfl, rfl⟩
  · rw [List.nil_append, map_ok (opt_back (signChar_back hr))]; rfl
  · rw [List.singleton_append, map_ok (opt_ok (sat_ok (by decide)))]; rfl
  · rw [List.singleton_append, map_ok (opt_ok (sat_ok (by decide)))]; rfl

theorem noHead_of_all {f g : Char → Bool} {d r : Text} (hd : d ≠ []) (h : ∀ c ∈ d, f c = true) (hfg : ∀ c, f c = true → g c = false) :
    NoHead g (d ++ r) := by
  cases d with
  | nil => exact absurd rfl hd
  | cons c d =>
    intro c' r' e
    rw [List.cons_append] at e
    cases e
    exact hfg c (h c (by simp))

theorem digit_not_sign (c : Char) (h : isDigit c = true) : (c == '+' || c == '-') = false := by
  have h1 : c ≠ '+' := ne_of_isDigit h (by decide)
  have h2 : c ≠ '-' := ne_of_isDigit h (by decide)
  simp [h1, h2]

theorem exponent_noHead {x : ℤ} {e : Text} (h : ExponentText x e) : NoHead isDigit e ∧ NoHead (· == '.') e := by
  rcases h with ⟨rfl, -⟩ | ⟨c, n, s, d, hc, -, -, rfl, -⟩
  · exact ⟨noHead_nil _, noHead_nil _⟩
  · rcases hc with rfl | rfl <;> exact ⟨noHead_cons (by decide), noHead_cons (by decide)⟩

theorem char_noHead {c : Char} {s : Text} (h : NoHead (· == c) s) : char c s = .back := by
  cases s with
  | nil => rfl
  | cons d r => exact sat_back (h d r rfl)

theorem exponent_ok {x : ℤ} {e : Text} (h : ExponentText x e) : exponentP e = .ok x [] := by
  unfold exponentP
  rcases h with ⟨rfl, rfl⟩ | ⟨c, n, s, d, hc, hs, hd, rfl, rfl⟩
  · rfl
  · have h1 : signP (s ++ d) = .ok n d := sign_ok hs (by have := noHead_of_all (r := []) hd.1 hd.2 digit_not_sign; simpa using this)
    have h2 : digit1 d = .ok d [] := by have := digit1_ok (r := []) hd (noHead_nil _); simpa using this
    rw [map_ok (opt_ok (seqP_ok (r := s ++ d) (sat_ok (by rcases hc with rfl | rfl <;> decide)) |>.trans
      ((seqP_ok h1).trans (cutErr_ok (map_ok h2)))))]
    rfl

theorem mantissa_ok {i f m r : Text} (h : MantissaText i f m) (h1 : NoHead isDigit r) (h2 : NoHead (· == '.') r) : mantissaP (m ++ r) = .ok (i, f) r := by
  unfold mantissaP
  rcases h with ⟨hi, rfl, rfl⟩ | ⟨hi, hf, rfl⟩ | ⟨rfl, hf, rfl⟩
  · refine alt_ok ((seqP_ok (digit1_ok hi h1)).trans ?_)
    rw [map_ok (opt_back (seqP_back (char_noHead h2)))]
    rfl
  · refine alt_ok ?_
    have e : i ++ '.' :: f ++ r = i ++ '.' :: (f ++ r) := by simp
    rw [e]
    refine (seqP_ok (digit1_ok hi (noHead_cons (by decide)))).trans ?_
    rw [map_ok (opt_ok ((seqP_ok char_ok).trans (digit0_ok hf h1)))]
    rfl
  · rw [List.cons_append]
    rw [alt_back (seqP_back (digit1_back (noHead_cons (by decide))))]
    exact (seqP_ok char_ok).trans (map_ok (digit1_ok hf h1))

theorem mantissa_head {i f m r : Text} (h : MantissaText i f m) : NoHead (fun c => c == '+' || c == '-') (m ++ r) := by
  rcases h with ⟨hi, rfl, rfl⟩ | ⟨hi, hf, rfl⟩ | ⟨rfl, hf, rfl⟩
  · exact noHead_of_all hi.1 hi.2 digit_not_sign
  · rw [List.append_assoc]; exact noHead_of_all hi.1 hi.2 digit_not_sign
  · exact noHead_cons (by decide)

theorem caseless_ok {t u : Text} (h : AnyCase t u) : caseless t u = .ok () [] := by
  unfold caseless
  unfold AnyCase at h
  have hl : t.length = u.length := by rw [← h, List.length_map]
  rw [hl, List.take_length, if_pos h, List.drop_length]

theorem caseless_back {t u : Text} (h : ¬ AnyCase t (u.take t.length)) : caseless t u = .back := by
  unfold caseless
  exact if_neg h

/-- The first letter of a text in any case is a letter. -/
theorem anyCase_head {c : Char} {t u : Text} (h : AnyCase (c :: t) u) : ∃ d u', u = d :: u' ∧ d.toLower = c := by
  cases u with
  | nil => cases h
  | cons d u' =>
    unfold AnyCase at h
    rw [List.map_cons, List.cons.injEq] at h
    exact ⟨d, u', rfl, h.1⟩

theorem toLower_digit {d : Char} (h : isDigit d = true) : d.toLower = d := by
  unfold isDigit at h
  have h := of_decide_eq_true h
  unfold Char.toLower
  rw [dif_neg]
  rintro ⟨h1, h2⟩
  have : 65 ≤ d.toNat := h1
  omega

/-- What does not start with a digit or a point is not a number with digits. -/
theorem mantissa_back {s : Text} (h1 : NoHead isDigit s) (h2 : NoHead (· == '.') s) : mantissaP s = .back := by
  unfold mantissaP
  rw [alt_back (seqP_back (digit1_back h1)), seqP_back (char_noHead h2)]

theorem letter_heads {c d : Char} {s : Text} (h : d.toLower = c) (hc1 : isDigit c = false) (hc2 : c ≠ '.') (hc3 : c ≠ '+') (hc4 : c ≠ '-') :
    NoHead isDigit (d :: s) ∧ NoHead (· == '.') (d :: s) ∧ NoHead (fun c => c == '+' || c == '-') (d :: s) := by
  refine ⟨noHead_cons ?_, noHead_cons ?_, noHead_cons ?_⟩
  · cases hd : isDigit d with
    | false => rfl
    | true => rw [toLower_digit hd] at h; rw [h, hc1] at hd; cases hd
  · cases hd : d == '.' with
    | false => rfl
    | true =>
      rw [beq_iff_eq] at hd
      subst hd
      exact absurd h.symm hc2
  · cases hd : (d == '+' || d == '-') with
    | false => rfl
    | true =>
      simp only [Bool.or_eq_true, beq_iff_eq] at hd
      rcases hd with rfl | rfl
      · exact absurd h.symm hc3
      · exact absurd h.symm hc4

theorem number_ok {v : NumberParts} {t : Text} (h : NumberText v t) : numberP t = .ok v [] := by
  unfold numberP
  cases v with
  | num n i f x =>
    obtain ⟨s, m, e, rfl, hs, hm, he⟩ := h
    refine alt_ok ((seqP_ok (sign_ok hs (mantissa_head hm))).trans ((seqP_ok (mantissa_ok hm (exponent_noHead he).1 (exponent_noHead he).2)).trans
      (map_ok (exponent_ok he))))
  | nan =>
    obtain ⟨d, u, rfl, hd⟩ := anyCase_head h
    obtain ⟨a1, a2, a3⟩ := letter_heads (s := u) hd (by decide) (by decide) (by decide) (by decide)
    have h1 : signP (d :: u) = .ok false (d :: u) := sign_ok (t := []) (Or.inl ⟨Or.inl rfl, rfl⟩) a3
    rw [alt_back ((seqP_ok h1).trans (seqP_back (mantissa_back a1 a2)))]
    exact alt_ok (map_ok (caseless_ok h))
  | inf n =>
    obtain ⟨s, u, rfl, hs, hu⟩ := h
    have hh : ∃ d u', u = d :: u' ∧ d.toLower = 'i' := by
      rcases hu with hu | hu <;> exact anyCase_head hu
    obtain ⟨d, u', rfl, hd⟩ := hh
    obtain ⟨a1, a2, a3⟩ := letter_heads (s := u') hd (by decide) (by decide) (by decide) (by decide)
    have h1 : signP (s ++ d :: u') = .ok n (d :: u') := sign_ok hs a3
    rw [alt_back ((seqP_ok h1).trans (seqP_back (mantissa_back a1 a2)))]
    have h2 : caseless ['n', 'a', 'n'] (s ++ d :: u') = .back := by
      refine caseless_back fun h => ?_
      obtain ⟨d', v, e, hd'⟩ := anyCase_head h
      rcases hs with ⟨rfl | rfl, -⟩ | ⟨rfl, -⟩
      · simp only [List.nil_append, List.length_cons, List.length_nil, List.take_succ_cons] at e
        cases e
        rw [hd] at hd'
        revert hd'; decide
      · simp only [List.singleton_append, List.length_cons, List.length_nil, List.take_succ_cons] at e
        cases e
        revert hd'; decide
      · simp only [List.singleton_append, List.length_cons, List.length_nil, List.take_succ_cons] at e
        cases e
        revert hd'; decide
    rw [alt_back (map_back h2)]
    rcases hu with hu | hu
    · have h3 : caseless ['i', 'n', 'f', 'i', 'n', 'i', 't', 'y'] (d :: u') = .back := by
        refine caseless_back fun h => ?_
        unfold AnyCase at h hu
        have l1 := congrArg List.length h
        have l2 := congrArg List.length hu
        simp at l1 l2
        omega
      rw [alt_back ((seqP_ok h1).trans (map_back h3))]
      exact (seqP_ok h1).trans (map_ok (caseless_ok hu))
    · exact alt_ok ((seqP_ok h1).trans (map_ok (caseless_ok hu)))

theorem ident_not_multi (c : Char) (h : isIdent c = true) : isMultispace c = false := by
  unfold isIdent at h
  have h := of_decide_eq_true h
  cases hm : isMultispace c with
  | false => rfl
  | true =>
    simp only [isMultispace, Bool.or_eq_true, beq_iff_eq] at hm
    rcases hm with ((rfl | rfl) | rfl) | rfl <;> revert h <;> decide

theorem ident_not_ws (c : Char) (h : isIdent c = true) : isWs c = false := by
  unfold isIdent at h
  have h := of_decide_eq_true h
  have hx : ∀ n : Nat, (48 ≤ n ∧ n ≤ 57 ∨ 65 ≤ n ∧ n ≤ 90 ∨ 97 ≤ n ∧ n ≤ 122 ∨ n = 95) → 48 ≤ n ∧ n ≤ 122 := by intro n h; omega
  have h' := hx c.toNat (by rcases h with h | h | h | rfl <;> [exact Or.inl h; exact Or.inr (Or.inl h); exact Or.inr (Or.inr (Or.inl h)); decide])
  simp only [isWs, Bool.or_eq_false_iff, decide_eq_false_iff_not, beq_eq_false_iff_ne]
  omega

theorem multi_not_ident (c : Char) (h : isMultispace c = true) : isIdent c = false := by
  simp only [isMultispace, Bool.or_eq_true, beq_iff_eq] at h
  rcases h with ((rfl | rfl) | rfl) | rfl <;> decide

theorem number_head {v : NumberParts} {t : Text} (h : NumberText v t) : NoHead isMultispace t := by
  have hdm : ∀ c, isDigit c = true → isMultispace c = false := fun c hc => by
    cases hm : isMultispace c with
    | false => rfl
    | true =>
      simp only [isMultispace, Bool.or_eq_true, beq_iff_eq] at hm
      rcases hm with ((rfl | rfl) | rfl) | rfl <;> revert hc <;> decide
  have hlm : ∀ d c : Char, d.toLower = c → isMultispace c = false → isMultispace d = false := fun d c h1 h2 => by
    cases hm : isMultispace d with
    | false => rfl
    | true =>
      simp only [isMultispace, Bool.or_eq_true, beq_iff_eq] at hm
      rcases hm with ((rfl | rfl) | rfl) | rfl <;> subst h1 <;> revert h2 <;> decide
  have hsign : ∀ {n s r}, SignText n s → NoHead isMultispace r → NoHead isMultispace (s ++ r) := fun hs hr => by
    rcases hs with ⟨rfl | rfl, -⟩ | ⟨rfl, -⟩
    · exact hr
    · exact noHead_cons (by decide)
    · exact noHead_cons (by decide)
  cases v with
  | num n i f x =>
    obtain ⟨s, m, e, rfl, hs, hm, -⟩ := h
    refine hsign hs ?_
    rcases hm with ⟨hi, rfl, rfl⟩ | ⟨hi, hf, rfl⟩ | ⟨rfl, hf, rfl⟩
    · exact noHead_of_all hi.1 hi.2 hdm
    · rw [List.append_assoc]; exact noHead_of_all hi.1 hi.2 hdm
    · exact noHead_cons (by decide)
  | nan =>
    obtain ⟨d, u, rfl, hd⟩ := anyCase_head h
    exact noHead_cons (hlm d _ hd (by decide))
  | inf n =>
    obtain ⟨s, u, rfl, hs, hu⟩ := h
    refine hsign hs ?_
    rcases hu with hu | hu <;>
    · obtain ⟨d, u, rfl, hd⟩ := anyCase_head hu
      exact noHead_cons (hlm d _ hd (by decide))

theorem processLine_complete {l x y : Text} {v : NumberParts} (h : EntryLine x y v l) : processLine l = some (x, y, v) := by
  obtain ⟨p, w, w', t, rfl, hp, hx, hy, hw, hw', ht⟩ := h
  unfold processLine
  have e : trimStart (p ++ (x ++ (w ++ (y ++ (w' ++ t))))) = x ++ (w ++ (y ++ (w' ++ t))) := by
    rw [trimStart_append hp]
    exact dropWhile_append (w := []) (fun c hc => by cases hc) (noHead_of_all hx.1 hx.2 ident_not_ws)
  rw [e]
  have hc : startsWith ['%'] (x ++ (w ++ (y ++ (w' ++ t)))) = false := by
    obtain ⟨h1, h2⟩ := hx
    cases x with
    | nil => exact absurd rfl h1
    | cons c x =>
      have hne : '%' ≠ c := by
        rintro rfl
        exact absurd (h2 '%' (by simp)) (by decide)
      simp [startsWith, List.isPrefixOf, hne]
  rw [hc, if_neg (by decide)]
  refine parse_ok ?_
  unfold entryP
  refine (seqP_ok (while1_ok hx.1 hx.2 (noHead_of_all hw.1 hw.2 multi_not_ident))).trans ?_
  refine (seqP_ok (multi_ok hw (noHead_of_all hy.1 hy.2 ident_not_multi))).trans ?_
  refine (seqP_ok (while1_ok hy.1 hy.2 (noHead_of_all hw'.1 hw'.2 multi_not_ident))).trans ?_
  refine (seqP_ok (multi_ok hw' (number_head ht))).trans ?_
  exact map_ok (number_ok ht)

theorem processLine_empty {l : Text} (h : EmptyLine l) : processLine l = none := by
  unfold processLine
  rcases h with h | ⟨p, t, rfl, hp⟩
  · have : trimStart l = [] := by
      have := dropWhile_append (f := isWs) (s := []) h (noHead_nil _)
      rwa [List.append_nil] at this
    rw [this]; rfl
  · have : trimStart (p ++ '%' :: t) = '%' :: t := by
      rw [trimStart_append hp]
      exact dropWhile_append (w := []) (fun c hc => by cases hc) (noHead_cons (by decide))
    rw [this, if_pos (by simp [startsWith, List.isPrefixOf])]

/-! ### Files -/

theorem chomp_lf {l : Text} (h : ∀ r, l ≠ r ++ ['\r']) : chomp (l ++ ['\n']) = l := by
  unfold chomp
  rw [List.reverse_append]
  cases hr : l.reverse with
  | nil => rw [List.reverse_eq_nil_iff] at hr; subst hr; rfl
  | cons c r =>
    have hl : l = r.reverse ++ [c] := by rw [← List.reverse_reverse l, hr, List.reverse_cons]
    have hc : c ≠ '\r' := by rintro rfl; exact h _ hl
    simp only [List.reverse_cons, List.reverse_nil, List.nil_append, List.singleton_append]
    split
    · rename_i e; cases e; exact absurd rfl hc
    · rename_i e; cases e; rw [hl, List.reverse_cons]
    · rename_i e1 e2; exact absurd rfl (e2 _)

theorem chomp_crlf (l : Text) : chomp (l ++ ['\r'] ++ ['\n']) = l := by
  unfold chomp
  rw [List.reverse_append, List.reverse_append]
  simp

theorem chomp_none {l : Text} (h : '\n' ∉ l) : chomp l = l := by
  unfold chomp
  split
  · rename_i r e
    exact absurd (by rw [← List.mem_reverse, e]; simp) h
  · rename_i r _ e
    exact absurd (by rw [← List.mem_reverse, e]; simp) h
  · rfl

theorem FileText.lines {L : List Text} {t : Text} (h : FileText L t) (hn : ∀ l ∈ L, '\n' ∉ l) : Text.lines t = L := by
  unfold Text.lines
  induction h with
  | nil => rfl
  | last l hl => rw [readLines_last (hn l (by simp)) hl, List.map_cons, chomp_none (hn l (by simp))]; rfl
  | lf l L t hl _ ih =>
    rw [readLines_line (hn l (by simp)), List.map_cons, chomp_lf hl, ih fun l hl => hn l (by simp [hl])]
  | crlf l L t _ ih =>
    have e : l ++ '\r' :: '\n' :: t = (l ++ ['\r']) ++ '\n' :: t := by simp
    have hc : '\n' ∉ l ++ ['\r'] := by
      rw [List.mem_append, not_or]; exact ⟨hn l (by simp), by decide⟩
    rw [e, readLines_line hc, List.map_cons, chomp_crlf, ih fun l hl => hn l (by simp [hl])]

theorem FileLines.newline {es : List (Text × Text × NumberParts)} {L : List Text} (h : FileLines es L) : ∀ l ∈ L, '\n' ∉ l := by
  induction h with
  | nil => intro l hl; cases hl
  | skip l es L _ h _ ih =>
    intro l' hl
    rcases List.mem_cons.1 hl with rfl | hl
    · exact h
    · exact ih l' hl
  | entry l x y v es L _ h _ ih =>
    intro l' hl
    rcases List.mem_cons.1 hl with rfl | hl
    · exact h
    · exact ih l' hl

theorem FileLines.entries {es : List (Text × Text × NumberParts)} {L : List Text} (h : FileLines es L) : L.filterMap processLine = es := by
  induction h with
  | nil => rfl
  | skip l es L h _ _ ih => rw [List.filterMap_cons, processLine_empty h]; exact ih
  | entry l x y v es L h _ _ ih => rw [List.filterMap_cons, processLine_complete h]; simp only [ih]

end Clustering
end RustSat
