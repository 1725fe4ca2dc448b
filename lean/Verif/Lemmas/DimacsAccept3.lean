import Verif.Lemmas.DimacsAccept2
/-
Files that the DIMACS parsers accept, and the standard (C94).
-/
namespace RustSat.DimacsSpec
open Text P Dimacs
open Clustering (seqP_inv map_inv alt_inv opt_inv cutErr_inv sat_inv takeWhile_all)
variable {α : Type} {R : α → Text → Prop} {p : P α}

/-! ### Trimming -/

theorem trimEnd_split (s : Text) : ∃ w, White w ∧ s = trimEnd s ++ w := by
  obtain ⟨w, hw, e⟩ := OutputSpec.trimStart_split s.reverse
  refine ⟨w.reverse, fun c hc => hw c (List.mem_reverse.1 hc), ?_⟩
  have := congrArg List.reverse e
  rw [List.reverse_reverse, List.reverse_append] at this
  exact this

theorem trim_split (s : Text) : ∃ w w', White w ∧ White w' ∧ s = w ++ trim s ++ w' := by
  obtain ⟨w, hw, e⟩ := OutputSpec.trimStart_split s
  obtain ⟨w', hw', e'⟩ := trimEnd_split (trimStart s)
  exact ⟨w, w', hw, hw', by rw [trim, List.append_assoc, ← e', ← e]⟩

theorem trim_isTight (s : Text) : Tight (trim s) := by
  have h1 : ∀ (s : Text) c r, trimStart s = c :: r → isWs c = false := fun s => noHead_dropWhile isWs s
  constructor
  · intro c r e
    obtain ⟨w, hw, e'⟩ := trimEnd_split (trimStart s)
    rw [show trimEnd (trimStart s) = c :: r from e] at e'
    exact h1 s c (r ++ w) (by rw [e']; rfl)
  · intro c r e
    have : (trimStart s).reverse.dropWhile isWs = c :: r.reverse := by
      have := congrArg List.reverse e
      rw [trim, trimEnd, List.reverse_reverse, List.reverse_append] at this
      simpa using this
    exact noHead_dropWhile isWs (trimStart s).reverse c r.reverse this

theorem trim_empty {s : Text} : (trim s).isEmpty = true ↔ White s := by
  constructor
  · intro h
    obtain ⟨w, w', hw, hw', e⟩ := trim_split s
    have : trim s = [] := by simpa using h
    rw [this] at e
    rw [e]
    intro c hc
    simp only [List.append_nil, List.mem_append] at hc
    rcases hc with hc | hc
    · exact hw c hc
    · exact hw' c hc
  · intro h; rw [trim_white h]; rfl

theorem trim_newline_mem {s : Text} (h : '\n' ∉ s) : '\n' ∉ trim s := by
  obtain ⟨w, w', hw, hw', e⟩ := trim_split s
  intro hh
  exact h (by rw [e]; simp [hh])

/-! ### Lines of a text -/

/-- A line without its line feed. -/
def stripNl (l : Text) : Text := if l.getLast? = some '\n' then l.dropLast else l

theorem stripNl_line (l : Text) : stripNl (l ++ ['\n']) = l := by
  unfold stripNl
  rw [if_pos (by simp)]
  simp

theorem stripNl_last {l : Text} (h : '\n' ∉ l) : stripNl l = l := by
  unfold stripNl
  rw [if_neg]
  intro e
  exact h (List.mem_of_getLast? e)

theorem LinesOf.read {L : List Text} {t : Text} (h : LinesOf L t) : (readLines t).map stripNl = L := by
  induction h with
  | nil => rfl
  | last h1 h2 => rw [readLines_last h2 h1]; simp [stripNl_last h2]
  | line h1 h2 ih => rw [readLines_line h1, List.map_cons, stripNl_line, ih]

theorem linesOf_exists : ∀ (t : Text), ∃ L, LinesOf L t := by
  intro t
  have : ∀ n (t : Text), t.length ≤ n → ∃ L, LinesOf L t := by
    intro n
    induction n with
    | zero => intro t ht; have e : t = [] := List.length_eq_zero_iff.1 (by omega); exact ⟨[], by rw [e]; exact .nil⟩
    | succ n ih =>
      intro t ht
      by_cases hm : '\n' ∈ t
      · obtain ⟨a, b, e, ha⟩ := List.eq_append_cons_of_mem hm
        obtain ⟨L, hL⟩ := ih b (by rw [e] at ht; simp at ht; omega)
        exact ⟨a :: L, by rw [e]; exact .line ha hL⟩
      · by_cases h0 : t = []
        · exact ⟨[], by rw [h0]; exact .nil⟩
        · exact ⟨[t], .last h0 hm⟩
  exact this t.length t (Nat.le_refl _)

theorem LinesOf.newline {L : List Text} {t : Text} (h : LinesOf L t) : ∀ l ∈ L, '\n' ∉ l := by
  induction h with
  | nil => intro l hl; cases hl
  | last h1 h2 => intro l hl; rw [List.mem_singleton] at hl; subst hl; exact h2
  | line h1 h2 ih =>
    intro l hl
    rcases List.mem_cons.1 hl with rfl | hl
    · exact h1
    · exact ih l hl

theorem trim_stripNl (l : Text) : trim (stripNl l) = trim l := by
  unfold stripNl
  by_cases h : l.getLast? = some '\n'
  · rw [if_pos h]
    have : l = l.dropLast ++ ['\n'] := by
      rcases List.eq_nil_or_concat l with e | ⟨r, c, e⟩
      · rw [e] at h; cases h
      · have e : l = r ++ [c] := by simpa using e
        rw [e, List.getLast?_concat] at h
        rw [e, Option.some.inj h]
        simp
    conv => rhs; rw [this]
    rw [trim_newline]
  · rw [if_neg h]

theorem body_map (p : P α) : ∀ L : List Text, body p (L.map stripNl) = body p L
  | [] => rfl
  | l :: L => by
    rw [List.map_cons, body, body, trim_stripNl, body_map p L]

/-! ### Bodies -/

theorem body_exact (hp : ExactLine R p) : ∀ {L : List Text} {as : List α}, (∀ l ∈ L, '\n' ∉ l) →
    (body p L = some as ↔ FileLines R L as)
  | [], as, _ => by
    constructor
    · intro h; cases h; exact .nil
    · intro h; cases h; rfl
  | l :: L, as, hL => by
    have hl := hL l List.mem_cons_self
    have ih := fun as => body_exact hp (L := L) (as := as) fun x hx => hL x (List.mem_cons_of_mem _ hx)
    rw [body]
    by_cases he : (trim l).isEmpty = true
    · rw [if_pos he, ih]
      have hw := trim_empty.1 he
      constructor
      · exact fun h => .blank hw hl h
      · intro h
        cases h with
        | blank _ _ h => exact h
        | @data a t w w' _ as' hR h1 h2 h3 h4 =>
          exfalso
          obtain ⟨t1, t2, _⟩ := hp.tight a t hR
          rw [trim_pad t1 h1 h2] at he
          exact t2 (by simpa using he)
    · rw [if_neg he]
      have hne : trim l ≠ [] := by simpa using he
      constructor
      · intro h
        cases h1 : parse p (trim l) with
        | none => rw [h1] at h; cases h
        | some a =>
          rw [h1] at h
          cases h2 : body p L with
          | none => rw [h2] at h; cases h
          | some as' =>
            rw [h2] at h
            cases h
            have hR := (hp.exact a (trim l) (trim_isTight l) hne (trim_newline_mem hl)).1 h1
            obtain ⟨w, w', hw, hw', e⟩ := trim_split l
            have := FileLines.data (ls := L) (as := as') hR hw hw' (by rw [← e]; exact hl) ((ih as').1 h2)
            rw [← e] at this
            exact this
      · intro h
        cases h with
        | blank h1 _ _ => exact absurd (trim_empty.2 h1) he
        | @data a t w w' _ as' hR h1 h2 h3 h4 =>
          obtain ⟨t1, t2, t3⟩ := hp.tight a t hR
          rw [trim_pad t1 h1 h2, (hp.exact a t t1 t2 t3).2 hR, (ih as').2 h4]

/-! ### Headers -/

theorem ignored_iff {l : Text} (hl : '\n' ∉ l) :
    ((trim l).isEmpty = true ∨ startsWith ['c'] (trim l) = true) ↔ IgnoredLine l := by
  constructor
  · intro h
    refine ⟨hl, ?_⟩
    rcases h with h | h
    · exact Or.inl (trim_empty.1 h)
    · obtain ⟨r, e⟩ := OutputSpec.startsWith_iff.1 h
      obtain ⟨w, w', hw, hw', e'⟩ := trim_split l
      exact Or.inr ⟨w, r ++ w', hw, by rw [e', e]; simp⟩
  · rintro ⟨_, h⟩
    rcases h with h | ⟨w, t, hw, e⟩
    · exact Or.inl (trim_empty.2 h)
    · right
      obtain ⟨r, e'⟩ := trim_comment (t := t) hw
      rw [e, e']; rfl

/-- What a parser of the header line accepts. -/
structure ExactHeader (R : Text → Prop) (q : Text → Prop) : Prop where
  tight : ∀ t, R t → Tight t ∧ t ≠ [] ∧ startsWith ['c'] t = false
  exact : ∀ t, Tight t → t ≠ [] → '\n' ∉ t → (q t ↔ R t)

theorem ExactHeader.line {R q : Text → Prop} (h : ExactHeader R q) {l : Text} (hl : '\n' ∉ l) (hi : ¬ IgnoredLine l) :
    q (trim l) ↔ Around R l := by
  have hne : trim l ≠ [] := fun e => hi ((ignored_iff hl).1 (Or.inl (by rw [e]; rfl)))
  rw [h.exact _ (trim_isTight l) hne (trim_newline_mem hl)]
  constructor
  · intro hR
    obtain ⟨w, w', hw, hw', e⟩ := trim_split l
    exact ⟨w, trim l, w', e, hw, hw', hR⟩
  · rintro ⟨w, t, w', rfl, hw, hw', hR⟩
    rwa [trim_pad (h.tight t hR).1 hw hw']

theorem ExactHeader.notIgnored {R q : Text → Prop} (h : ExactHeader R q) {l : Text} (ha : Around R l) : ¬ IgnoredLine l := by
  intro hi
  obtain ⟨w, t, w', rfl, hw, hw', hR⟩ := ha
  obtain ⟨h1, h2, h3⟩ := h.tight t hR
  have := (ignored_iff hi.1).2 hi
  rw [trim_pad h1 hw hw', h3] at this
  rcases this with this | this
  · exact h2 (by simpa using this)
  · cases this

theorem cnf_header_exact (nv nc : Nat) : ExactHeader (CnfHeaderRead nv nc) (fun t => parse cnfPLine t = some (nv, nc)) := by
  constructor
  · rintro t ⟨h1, h2, h3, h4, h5, h6, h7⟩
    rename_i s s' s'' n m
    refine ⟨⟨fun c r e => by cases e; decide, ?_⟩, by simp, rfl⟩
    intro x r e
    rcases List.eq_nil_or_concat m with e' | ⟨r', y, e'⟩
    · exact absurd e' h6.chars.1
    · have e' : m = r' ++ [y] := by simpa using e'
      have : x = y := by
        have e2 := congrArg List.getLast? e
        rw [e', show 'p' :: (s ++ ('c' :: 'n' :: 'f' :: (s' ++ (n ++ (s'' ++ (r' ++ [y])))))) = ('p' :: (s ++ ('c' :: 'n' :: 'f' :: (s' ++ (n ++ (s'' ++ r')))))) ++ [y] by simp,
          List.getLast?_concat, List.getLast?_concat] at e2
        exact (Option.some.inj e2).symm
      subst this
      exact h6.chars.2.1 x (by rw [e']; simp)
  · intro t ht hne hn
    constructor
    · intro h
      have h := parse_inv h
      obtain ⟨_, r1, h1, g1⟩ := seqP_inv h
      obtain ⟨_, r2, h2, g2⟩ := seqP_inv g1
      obtain ⟨_, r3, h3, g3⟩ := seqP_inv g2
      obtain ⟨_, r4, h4, g4⟩ := seqP_inv g3
      obtain ⟨n1, r5, h5, g5⟩ := seqP_inv g4
      obtain ⟨_, r6, h6, g6⟩ := seqP_inv g5
      obtain ⟨n2, r7, h7, g7⟩ := seqP_inv g6
      obtain ⟨_, r8, h8, g8⟩ := seqP_inv g7
      cases g8
      have e1 := char_inv h1
      obtain ⟨s, hs, e2, _⟩ := space1_inv h2
      have e3 := tag_inv (cutErr_inv h3)
      obtain ⟨s', hs', e4, _⟩ := space1_inv h4
      obtain ⟨b1, n, hn1, e5⟩ := decUint_inv h5
      obtain ⟨s'', hs'', e6, _⟩ := space1_inv h6
      obtain ⟨b2, m, hn2, e7⟩ := decUint_inv h7
      obtain ⟨w, hw, e8, _⟩ := space0_inv h8
      rw [List.append_nil] at e8
      have e : t = 'p' :: (s ++ ('c' :: 'n' :: 'f' :: (s' ++ (n ++ (s'' ++ (m ++ w)))))) := by rw [e1, e2, e3, e4, e5, e6, e7, e8]; rfl
      have hw0 : w = [] := by
        apply lastTight_space hw
        have := ht.last
        rw [e, show 'p' :: (s ++ ('c' :: 'n' :: 'f' :: (s' ++ (n ++ (s'' ++ (m ++ w)))))) = ('p' :: (s ++ ('c' :: 'n' :: 'f' :: (s' ++ (n ++ (s'' ++ m)))))) ++ w by simp] at this
        exact LastTight.suffix this
      rw [e, hw0, List.append_nil]
      exact .mk hs hs' hs'' hn1 b1 hn2 b2
    · rintro ⟨hs, hs', hs'', hn1, b1, hn2, b2⟩
      rename_i s s' s'' n m
      apply parse_ok
      have q1 : NoHead isSpace ('c' :: 'n' :: 'f' :: (s' ++ (n ++ (s'' ++ m)))) := noHead_cons (by decide)
      have q2 : NoHead isSpace (n ++ (s'' ++ m)) := noHead_append hn1.chars.1 fun x hx => notSpace_of_notWs (hn1.chars.2.1 x hx)
      have q3 : NoHead isSpace m := fun x r e => notSpace_of_notWs (hn2.chars.2.1 x (by rw [e]; simp))
      have ht : tag ['c', 'n', 'f'] ('c' :: 'n' :: 'f' :: (s' ++ (n ++ (s'' ++ m)))) = .ok () (s' ++ (n ++ (s'' ++ m))) := rfl
      have hm := hn2.ok (s := []) b2 (noHead_nil _)
      rw [List.append_nil] at hm
      rw [cnfPLine, seqP_ok char_ok, seqP_ok (space1_ok hs.1 hs.space q1), seqP_ok (cutErr_ok ht), seqP_ok (space1_ok hs'.1 hs'.space q2),
        seqP_ok (hn1.ok b1 (hs''.noDigit m)), seqP_ok (space1_ok hs''.1 hs''.space q3), seqP_ok hm]
      rfl

theorem wcnf_header_exact (nv nc top : Nat) :
    ExactHeader (WcnfHeaderRead nv nc top) (fun t => parse wcnfPLine t = some (nv, nc, top)) := by
  constructor
  · rintro t ⟨h1, h2, h3, h3', h4, h5, h6, h7, h8, h9⟩
    rename_i s s' s'' s3 n m k
    refine ⟨⟨fun c r e => by cases e; decide, ?_⟩, by simp, rfl⟩
    intro x r e
    rcases List.eq_nil_or_concat k with e' | ⟨r', y, e'⟩
    · exact absurd e' h8.chars.1
    · have e' : k = r' ++ [y] := by simpa using e'
      have : x = y := by
        have e2 := congrArg List.getLast? e
        rw [e', show 'p' :: (s ++ ('w' :: 'c' :: 'n' :: 'f' :: (s' ++ (n ++ (s'' ++ (m ++ (s3 ++ (r' ++ [y])))))))) = ('p' :: (s ++ ('w' :: 'c' :: 'n' :: 'f' :: (s' ++ (n ++ (s'' ++ (m ++ (s3 ++ r')))))))) ++ [y] by simp,
          List.getLast?_concat, List.getLast?_concat] at e2
        exact (Option.some.inj e2).symm
      subst this
      exact h8.chars.2.1 x (by rw [e']; simp)
  · intro t ht hne hn
    constructor
    · intro h
      have h := parse_inv h
      obtain ⟨_, r1, h1, g1⟩ := seqP_inv h
      obtain ⟨_, r2, h2, g2⟩ := seqP_inv g1
      obtain ⟨_, r3, h3, g3⟩ := seqP_inv g2
      obtain ⟨_, r4, h4, g4⟩ := seqP_inv g3
      obtain ⟨n1, r5, h5, g5⟩ := seqP_inv g4
      obtain ⟨_, r6, h6, g6⟩ := seqP_inv g5
      obtain ⟨n2, r7, h7, g7⟩ := seqP_inv g6
      obtain ⟨_, r8, h8, g8⟩ := seqP_inv g7
      obtain ⟨n3, r9, h9, g9⟩ := seqP_inv g8
      obtain ⟨_, r10, h10, g10⟩ := seqP_inv g9
      cases g10
      have e1 := char_inv h1
      obtain ⟨s, hs, e2, _⟩ := space1_inv h2
      have e3 := tag_inv (cutErr_inv h3)
      obtain ⟨s', hs', e4, _⟩ := space1_inv h4
      obtain ⟨b1, n, hn1, e5⟩ := decUint_inv h5
      obtain ⟨s'', hs'', e6, _⟩ := space1_inv h6
      obtain ⟨b2, m, hn2, e7⟩ := decUint_inv h7
      obtain ⟨s3, hs3, e8, _⟩ := space1_inv h8
      obtain ⟨b3, k, hn3, e9⟩ := decUint_inv h9
      obtain ⟨w, hw, e10, _⟩ := space0_inv h10
      rw [List.append_nil] at e10
      have e : t = 'p' :: (s ++ ('w' :: 'c' :: 'n' :: 'f' :: (s' ++ (n ++ (s'' ++ (m ++ (s3 ++ (k ++ w)))))))) := by
        rw [e1, e2, e3, e4, e5, e6, e7, e8, e9, e10]; rfl
      have hw0 : w = [] := by
        apply lastTight_space hw
        have := ht.last
        rw [e, show 'p' :: (s ++ ('w' :: 'c' :: 'n' :: 'f' :: (s' ++ (n ++ (s'' ++ (m ++ (s3 ++ (k ++ w)))))))) = ('p' :: (s ++ ('w' :: 'c' :: 'n' :: 'f' :: (s' ++ (n ++ (s'' ++ (m ++ (s3 ++ k)))))))) ++ w by simp] at this
        exact LastTight.suffix this
      rw [e, hw0, List.append_nil]
      exact .mk hs hs' hs'' hs3 hn1 b1 hn2 b2 hn3 b3
    · rintro ⟨hs, hs', hs'', hs3, hn1, b1, hn2, b2, hn3, b3⟩
      rename_i s s' s'' s3 n m k
      apply parse_ok
      have q1 : NoHead isSpace ('w' :: 'c' :: 'n' :: 'f' :: (s' ++ (n ++ (s'' ++ (m ++ (s3 ++ k)))))) := noHead_cons (by decide)
      have q2 : NoHead isSpace (n ++ (s'' ++ (m ++ (s3 ++ k)))) := noHead_append hn1.chars.1 fun x hx => notSpace_of_notWs (hn1.chars.2.1 x hx)
      have q3 : NoHead isSpace (m ++ (s3 ++ k)) := noHead_append hn2.chars.1 fun x hx => notSpace_of_notWs (hn2.chars.2.1 x hx)
      have q4 : NoHead isSpace k := fun x r e => notSpace_of_notWs (hn3.chars.2.1 x (by rw [e]; simp))
      have ht : tag ['w', 'c', 'n', 'f'] ('w' :: 'c' :: 'n' :: 'f' :: (s' ++ (n ++ (s'' ++ (m ++ (s3 ++ k)))))) = .ok () (s' ++ (n ++ (s'' ++ (m ++ (s3 ++ k))))) := rfl
      have hm := hn3.ok (s := []) b3 (noHead_nil _)
      rw [List.append_nil] at hm
      rw [wcnfPLine, seqP_ok char_ok, seqP_ok (space1_ok hs.1 hs.space q1), seqP_ok (cutErr_ok ht), seqP_ok (space1_ok hs'.1 hs'.space q2),
        seqP_ok (hn1.ok b1 (hs''.noDigit _)), seqP_ok (space1_ok hs''.1 hs''.space q3), seqP_ok (hn2.ok b2 (hs3.noDigit _)),
        seqP_ok (space1_ok hs3.1 hs3.space q4), seqP_ok hm]
      rfl

end RustSat.DimacsSpec
