import Verif.Spec.ProofText
import Verif.Lemmas.SolverOutput
/-
Reading words and lines of proofs.
-/
namespace RustSat
namespace ProofText
open Text (showNat showInt splitWs isWs isDigit)
open OutputSpec (splitWs_ws splitWs_one splitWs_more splitWs_word)

/-! ### Words of texts -/

theorem splitWs_sep {c : Char} (hc : isWs c = true) : ∀ (a b : Text), splitWs (a ++ c :: b) = splitWs a ++ splitWs b
  | [], b => by simp [splitWs, hc]
  | x :: a, b => by
    have ih := splitWs_sep hc a b
    by_cases hx : isWs x = true
    · rw [List.cons_append, splitWs_ws hx, splitWs_ws hx, ih]
    · have hx : isWs x = false := by simpa using hx
      cases a with
      | nil =>
        rw [List.cons_append, List.nil_append, splitWs_one hx hc, splitWs_ws hc]
        simp [splitWs, hx]
      | cons y a =>
        by_cases hy : isWs y = true
        · rw [List.cons_append, List.cons_append, splitWs_one hx hy, splitWs_one hx hy]
          rw [List.cons_append] at ih
          rw [ih]; rfl
        · have hy : isWs y = false := by simpa using hy
          have hne : splitWs (y :: a) ≠ [] := by
            cases a with
            | nil => simp [splitWs, hy]
            | cons z a =>
              by_cases hz : isWs z = true
              · rw [splitWs_one hy hz]; simp
              · have hz : isWs z = false := by simpa using hz
                cases e : splitWs (z :: a) with
                | nil =>
                  intro h
                  rw [splitWs.eq_def] at h
                  simp [hy, hz, e] at h
                | cons w ws => rw [splitWs_more hy hz e]; simp
          cases e : splitWs (y :: a) with
          | nil => exact absurd e hne
          | cons w ws =>
            rw [e] at ih
            rw [splitWs_more hx hy e, List.cons_append, List.cons_append, splitWs_more hx hy (w := w) (ws := ws ++ splitWs b)]
            · rfl
            · rw [List.cons_append] at ih; rw [ih]; rfl

theorem splitWs_sp (a b : Text) : splitWs (a ++ ' ' :: b) = splitWs a ++ splitWs b := splitWs_sep (by decide) a b

theorem splitWs_of_word {t : Text} (h : Word t) : splitWs t = [t] := by
  have := splitWs_word (x := t) (t := []) h.1 h.2 (.inl rfl)
  simpa [splitWs] using this

theorem splitWs_joinSp : ∀ ts : List Text, splitWs (joinSp ts) = ts.flatMap splitWs
  | [] => rfl
  | [t] => by simp [joinSp]
  | t :: u :: ts => by
    rw [joinSp, splitWs_sp, splitWs_joinSp (u :: ts)]
    · simp
    · simp

theorem splitWs_spaces : ∀ (n : Nat) (t : Text), splitWs (spaces n ++ t) = splitWs t
  | 0, _ => rfl
  | n + 1, t => by
    show splitWs (' ' :: (spaces n ++ t)) = _
    rw [splitWs_ws (by decide), splitWs_spaces n t]

/-- No line break. -/
def NL (t : Text) : Prop := '\n' ∉ t

theorem NL.nil : NL [] := by simp [NL]
theorem NL.append {a b : Text} (ha : NL a) (hb : NL b) : NL (a ++ b) := by
  unfold NL at *; simp [ha, hb]
theorem NL.cons {c : Char} {b : Text} (hc : c ≠ '\n') (hb : NL b) : NL (c :: b) := by
  unfold NL at *; simp [hb]; exact fun h => hc h.symm
theorem NL.joinSp : ∀ {ts : List Text}, (∀ t ∈ ts, NL t) → NL (joinSp ts)
  | [], _ => NL.nil
  | [t], h => h t (by simp)
  | t :: u :: ts, h => by
    rw [ProofText.joinSp]
    · exact (h t (by simp)).append (.cons (by decide) (NL.joinSp fun x hx => h x (List.mem_cons_of_mem _ hx)))
    · simp
theorem NL.spaces (n : Nat) : NL (ProofText.spaces n) := by
  unfold NL ProofText.spaces; simp
theorem Word.nl {t : Text} (h : Word t) : NL t := fun hm => by
  have := h.2 _ hm
  revert this; decide
theorem NL.showNat (n : Nat) : NL (showNat n) := Text.newline_showNat n
theorem NL.showInt (n : Int) : NL (showInt n) := Text.newline_showInt n


/-! ### Words that are written -/

theorem isName_iff {t : Text} : isName t = true ↔ ∃ c d r, t = c :: d :: r ∧ isLetter c = true ∧ ∀ x ∈ d :: r, isNameChar x = true := by
  cases t with
  | nil => simp [isName]
  | cons c t =>
    cases t with
    | nil => simp [isName]
    | cons d r =>
      simp only [isName, Bool.and_eq_true, List.all_eq_true]
      constructor
      · rintro ⟨⟨h1, h2⟩, h3⟩
        refine ⟨c, d, r, rfl, h1, fun x hx => ?_⟩
        rcases List.mem_cons.1 hx with rfl | hx
        · exact h2
        · exact h3 x hx
      · rintro ⟨c', d', r', e, h1, h2⟩
        injection e with e1 e2
        injection e2 with e2 e3
        subst e1 e2 e3
        exact ⟨⟨h1, h2 _ (by simp)⟩, fun x hx => h2 x (by simp [hx])⟩

theorem isLetter_toNat {c : Char} (h : isLetter c = true) : (97 ≤ c.toNat ∧ c.toNat ≤ 122) ∨ (65 ≤ c.toNat ∧ c.toNat ≤ 90) := by
  simpa [isLetter] using h

theorem isWs_of_isLetter {c : Char} (h : isLetter c = true) : isWs c = false := by
  have := isLetter_toNat h
  simp only [isWs, Bool.or_eq_false_iff, decide_eq_false_iff_not, beq_eq_false_iff_ne]
  omega

theorem isNameChar_of_isLetter {c : Char} (h : isLetter c = true) : isNameChar c = true := by simp [isNameChar, h]
theorem isNameChar_of_isDigit {c : Char} (h : isDigit c = true) : isNameChar c = true := by simp [isNameChar, h]

theorem isWs_of_isNameChar {c : Char} (h : isNameChar c = true) : isWs c = false := by
  simp only [isNameChar, Bool.or_eq_true] at h
  rcases h with (h | h) | h
  · exact isWs_of_isLetter h
  · exact Text.isWs_of_isDigit h
  · simp at h
    rcases h with rfl | rfl | rfl | rfl | rfl | rfl | rfl <;> decide

theorem word_name {t : Text} (h : isName t = true) : Word t := by
  obtain ⟨c, d, r, rfl, h1, h2⟩ := isName_iff.1 h
  refine ⟨by simp, fun x hx => ?_⟩
  rcases List.mem_cons.1 hx with rfl | hx
  · exact isWs_of_isLetter h1
  · exact isWs_of_isNameChar (h2 x hx)

theorem Word.cons {c : Char} {t : Text} (hc : isWs c = false) (h : Word t) : Word (c :: t) :=
  ⟨by simp, fun x hx => by
    rcases List.mem_cons.1 hx with rfl | hx
    · exact hc
    · exact h.2 x hx⟩

theorem word_showNat (n : Nat) : Word (showNat n) :=
  ⟨Text.showNat_ne_nil n, fun c hc => Text.isWs_of_isDigit (Text.isDigit_showNat n c hc)⟩
theorem word_showInt (n : Int) : Word (showInt n) := ⟨Text.showInt_ne_nil n, Text.isWs_showInt n⟩

theorem Ax.word {a : Ax} (h : a.Valid) : Word a.text := by
  unfold Ax.text
  cases a.neg
  · exact word_name h
  · exact (word_name h).cons (by decide)

theorem CId.word (i : CId) : Word i.text := by
  cases i with
  | abs n => exact word_showNat n
  | rel n => exact (word_showNat n).cons (by decide)

theorem GoalId.word (g : GoalId) : Word g.text := by
  cases g with
  | constr i => exact i.word
  | specific n => exact (word_showNat n).cons (by decide)

theorem With.word {w : With} (h : ∀ a, w = .lit a → a.Valid) : Word w.text := by
  cases w with
  | true_ => exact ⟨by simp [With.text], by simp [With.text]; decide⟩
  | false_ => exact ⟨by simp [With.text], by simp [With.text]; decide⟩
  | lit a => exact Ax.word (h a rfl)

/-! ### Reading words -/

theorem readNum_showNat (n : Nat) : readNum (showNat n) = some n := by
  unfold readNum
  rw [if_pos ⟨Text.showNat_ne_nil n, List.all_eq_true.2 (Text.isDigit_showNat n)⟩, Text.readNat_showNat]

theorem showNat_cons (n : Nat) : ∃ c r, showNat n = c :: r ∧ isDigit c = true := by
  cases h : showNat n with
  | nil => exact absurd h (Text.showNat_ne_nil n)
  | cons c r => exact ⟨c, r, rfl, Text.isDigit_showNat n c (by rw [h]; simp)⟩

theorem readInt_showInt (z : Int) : readInt (showInt z) = some z := by
  unfold showInt
  by_cases h : z < 0
  · rw [if_pos h]
    show readInt ('-' :: showNat z.natAbs) = some z
    rw [readInt, readNum_showNat]
    show some (-(z.natAbs : Int)) = some z
    congr 1; omega
  · rw [if_neg h]
    obtain ⟨c, r, e, hc⟩ := showNat_cons z.natAbs
    have : readInt (showNat z.natAbs) = (readNum (showNat z.natAbs)).map fun n => (n : Int) := by
      rw [e]
      unfold readInt
      split
      · rename_i h'
        injection h' with h1 _
        subst h1
        exact absurd hc (by decide)
      · rfl
    rw [this, readNum_showNat]
    show some ((z.natAbs : Int)) = some z
    congr 1; omega

theorem readPos_showNat {n : Nat} (h : 0 < n) : readPos (showNat n) = some n := by
  unfold readPos
  rw [readNum_showNat]
  simp; omega

theorem readRef_text {i : CId} (h : i.Valid) : readRef i.text = some i := by
  cases i with
  | rel n =>
    show (readPos (showNat n)).map _ = _
    rw [readPos_showNat h]; rfl
  | abs n =>
    obtain ⟨c, r, e, hc⟩ := showNat_cons n
    have : readRef (showNat n) = (readPos (showNat n)).map .abs := by
      rw [e]
      unfold readRef
      split
      · rename_i h'
        injection h' with h1 _
        subst h1
        exact absurd hc (by decide)
      · rfl
    show readRef (showNat n) = _
    rw [this, readPos_showNat h]; rfl

theorem readLit_text {a : Ax} (h : a.Valid) : readLit a.text = some a := by
  obtain ⟨neg, v⟩ := a
  replace h : isName v = true := h
  cases neg with
  | true =>
    show (if isName v then some (⟨true, v⟩ : Ax) else none) = _
    rw [if_pos h]
  | false =>
    show readLit v = _
    obtain ⟨c, d, r, rfl, h1, -⟩ := isName_iff.1 h
    unfold readLit
    split
    · rename_i h'
      injection h' with h2 _
      subst h2
      exact absurd h1 (by decide)
    · rw [if_pos h]

theorem readWith_text {w : With} (h : ∀ a, w = .lit a → a.Valid) : readWith w.text = some w := by
  cases w with
  | true_ => rfl
  | false_ => rfl
  | lit a =>
    have ha := h a rfl
    have hl : 2 ≤ a.text.length := by
      obtain ⟨c, d, r, e, -, -⟩ := isName_iff.1 (show isName a.var = true from ha)
      unfold Ax.text; rw [e]; simp; omega
    show readWith a.text = _
    unfold readWith
    rw [if_neg (fun e => by rw [e] at hl; simp at hl), if_neg (fun e => by rw [e] at hl; simp at hl), readLit_text ha]
    rfl

theorem readGoalId_text {g : GoalId} (h : g.Valid) : readGoalId g.text = some g := by
  cases g with
  | specific n =>
    show (readPos (showNat n)).map _ = _
    rw [readPos_showNat h]; rfl
  | constr i =>
    show readGoalId i.text = _
    have : readGoalId i.text = (readRef i.text).map .constr := by
      unfold readGoalId
      split
      · rename_i h'
        cases i with
        | rel n => injection h' with h1 _; exact absurd h1 (by decide)
        | abs n =>
          obtain ⟨c, r, e, hc⟩ := showNat_cons n
          have h' : showNat n = _ := h'
          rw [e] at h'
          injection h' with h1 _
          subst h1
          exact absurd hc (by decide)
      · rfl
    rw [this, readRef_text h]; rfl

theorem readName_ok {v : Text} (h : isName v = true) : readName v = some v := if_pos h

theorem readAll_map {α β : Type} {f : Text → Option β} {g : α → Text} {k : α → β} : ∀ {xs : List α}, (∀ x ∈ xs, f (g x) = some (k x)) →
    readAll f (xs.map g) = some (xs.map k)
  | [], _ => rfl
  | x :: xs, h => by
    rw [List.map_cons, readAll, h x (by simp), readAll_map fun y hy => h y (by simp [hy])]
    rfl

theorem readAll_refs {ids : List CId} (h : ∀ i ∈ ids, i.Valid) : readAll readRef (ids.map CId.text) = some ids := by
  have := readAll_map (f := readRef) (g := CId.text) (k := id) (xs := ids) fun i hi => readRef_text (h i hi)
  simpa using this
theorem readAll_lits {ls : List Ax} (h : ∀ a ∈ ls, a.Valid) : readAll readLit (ls.map Ax.text) = some ls := by
  have := readAll_map (f := readLit) (g := Ax.text) (k := id) (xs := ls) fun a ha => readLit_text (h a ha)
  simpa using this
theorem readAll_names {vs : List Text} (h : ∀ v ∈ vs, isName v = true) : readAll readName vs = some vs := by
  have := readAll_map (f := readName) (g := id) (k := id) (xs := vs) fun v hv => readName_ok (h v hv)
  simpa using this

theorem takeRefs_ok {rest : List Text} (hr : ∀ t ts, rest = t :: ts → readRef t = none) : ∀ {ids : List CId}, (∀ i ∈ ids, i.Valid) →
    takeRefs (ids.map CId.text ++ rest) = (ids, rest)
  | [], _ => by
    cases rest with
    | nil => rfl
    | cons t ts => simp only [List.map_nil, List.nil_append, takeRefs, hr t ts rfl]
  | i :: ids, h => by
    rw [List.map_cons, List.cons_append, takeRefs, readRef_text (h i (by simp)),
      takeRefs_ok hr fun j hj => h j (by simp [hj])]

/-- The words of a sum. -/
def sumWords (sum : List (Int × Ax)) : List Text := sum.flatMap fun t => [showInt t.1, t.2.text]

theorem readTerms_ok {rest : List Text} (hr : ∀ t ts, rest = t :: ts → readInt t = none) : ∀ {sum : List (Int × Ax)},
    (∀ t ∈ sum, t.2.Valid) → readTerms (sumWords sum ++ rest) = (sum, rest)
  | [], _ => by
    match rest, hr with
    | [], _ => rfl
    | [t], _ => rfl
    | t :: u :: ts, hr =>
      show readTerms (t :: u :: ts) = _
      rw [readTerms, hr t _ rfl]
  | (k, l) :: sum, h => by
    show readTerms (showInt k :: l.text :: (sumWords sum ++ rest)) = _
    rw [readTerms, readInt_showInt, readLit_text (h (k, l) (by simp)), readTerms_ok hr fun t ht => h t (by simp [ht])]

/-- The words of a constraint with its semicolon. -/
def Con.words (c : Con) : List Text := sumWords c.sum ++ [['>', '='], showInt c.rhs, [';']]

theorem readCon_ok {c : Con} (h : c.Valid) (rest : List Text) : readCon (c.words ++ rest) = some (c, rest) := by
  unfold readCon Con.words
  rw [List.append_assoc, readTerms_ok (fun t ts e => by injection e with e _; subst e; decide) h]
  show (if ['>', '='] = ['>', '='] ∧ [';'] = [';'] then _ else _) = _
  rw [if_pos ⟨rfl, rfl⟩, readInt_showInt]
  rfl

theorem readObj_ok {o : Obj} (h : o.Valid) (h0 : o.offset = 0) (rest : List Text) :
    readObj (sumWords o.sum ++ [';'] :: rest) = some (o, rest) := by
  unfold readObj
  rw [readTerms_ok (fun t ts e => by injection e with e _; subst e; decide) h]
  show (if [';'] = [';'] then _ else _) = _
  rw [if_pos rfl]
  obtain ⟨s, k⟩ := o
  cases h0; rfl

/-- The words of substitutions. -/
def subsWords (subs : List Sub) : List Text := subs.flatMap fun s => [s.var, ['-', '>'], s.sub.text]

theorem readSubs_ok {rest : List Text} (hr : ∀ t ts, rest = t :: ts → isName t = false) : ∀ {subs : List Sub}, (∀ s ∈ subs, s.Valid) →
    readSubs (subsWords subs ++ rest) = (subs, rest)
  | [], _ => by
    match rest, hr with
    | [], _ => rfl
    | [t], _ => rfl
    | [t, u], _ => rfl
    | t :: u :: v :: ts, hr =>
      show readSubs (t :: u :: v :: ts) = _
      rw [readSubs, if_neg (fun h => by rw [hr t _ rfl] at h; exact absurd h.1 (by decide))]
  | ⟨v, w⟩ :: subs, h => by
    have hs := h ⟨v, w⟩ (by simp)
    show readSubs (v :: ['-', '>'] :: w.text :: (subsWords subs ++ rest)) = _
    rw [readSubs, if_pos ⟨hs.1, rfl⟩, readWith_text hs.2, readSubs_ok hr fun s hs => h s (by simp [hs])]

/-- The words of an operation. -/
def Op.words : Op → List Text
  | .mult k => [showNat k, ['*']]
  | .div k => [showNat k, ['d']]
  | o => [o.text]

theorem text_ne_of_digit {t : Text} {c d : Char} {r : Text} (e : t = c :: r) (hc : isDigit c = true) (hd : isDigit d = false) : t ≠ [d] := by
  intro h
  rw [e] at h
  injection h with h _
  rw [h, hd] at hc
  cases hc

theorem Ax.text_ne {a : Ax} (h : a.Valid) (x : Char) : a.text ≠ [x] := by
  obtain ⟨c, d, r, e, -, -⟩ := isName_iff.1 (show isName a.var = true from h)
  unfold Ax.text
  rw [e]
  cases a.neg <;> simp

theorem CId.text_ne {i : CId} (x : Char) (hx : isDigit x = false) : i.text ≠ [x] := by
  cases i with
  | abs n =>
    obtain ⟨c, r, e, hc⟩ := showNat_cons n
    exact text_ne_of_digit e hc hx
  | rel n =>
    obtain ⟨c, r, e, -⟩ := showNat_cons n
    show '-' :: showNat n ≠ _
    rw [e]; simp

theorem Op.first {o : Op} (h : o.Valid) : ∃ t r, o.words = t :: r ∧ t ≠ ['*'] ∧ t ≠ ['d'] := by
  cases o with
  | id i => exact ⟨_, _, rfl, CId.text_ne _ (by decide), CId.text_ne _ (by decide)⟩
  | ax a => exact ⟨_, _, rfl, Ax.text_ne h _, Ax.text_ne h _⟩
  | add => exact ⟨_, _, rfl, by decide, by decide⟩
  | sat => exact ⟨_, _, rfl, by decide, by decide⟩
  | weak => exact ⟨_, _, rfl, by decide, by decide⟩
  | mult k =>
    obtain ⟨c, r, e, hc⟩ := showNat_cons k
    exact ⟨_, _, rfl, text_ne_of_digit e hc (by decide), text_ne_of_digit e hc (by decide)⟩
  | div k =>
    obtain ⟨c, r, e, hc⟩ := showNat_cons k
    exact ⟨_, _, rfl, text_ne_of_digit e hc (by decide), text_ne_of_digit e hc (by decide)⟩

theorem readRef_lit {a : Ax} (h : a.Valid) : readRef a.text = none := by
  have hn : ∀ t : Text, isName t = true → readPos t = none := by
    intro t ht
    obtain ⟨c, d, r, rfl, h1, -⟩ := isName_iff.1 ht
    unfold readPos readNum
    rw [if_neg]
    rintro ⟨-, hall⟩
    have := List.all_eq_true.1 hall c (by simp)
    have h2 := isLetter_toNat h1
    simp [isDigit] at this
    omega
  obtain ⟨neg, v⟩ := a
  cases neg with
  | true =>
    show readRef ('~' :: v) = none
    show (readPos ('~' :: v)).map CId.abs = none
    have : readPos ('~' :: v) = none := by
      unfold readPos readNum
      rw [if_neg]
      rintro ⟨-, hall⟩
      have := List.all_eq_true.1 hall '~' (by simp)
      revert this; decide
    rw [this]; rfl
  | false =>
    show readRef v = none
    obtain ⟨c, d, r, rfl, h1, -⟩ := isName_iff.1 (show isName v = true from h)
    unfold readRef
    split
    · rename_i h'
      injection h' with h2 _
      subst h2
      exact absurd h1 (by decide)
    · rw [hn _ h]; rfl

theorem readOp_ok {o : Op} (h : o.Valid) (hw : o.words = [o.text]) : readOp o.text = some o := by
  cases o with
  | id i =>
    show readOp i.text = _
    unfold readOp
    rw [if_neg (CId.text_ne _ (by decide)), if_neg (CId.text_ne _ (by decide)), if_neg (CId.text_ne _ (by decide)), readRef_text h]
  | ax a =>
    show readOp a.text = _
    unfold readOp
    rw [if_neg (Ax.text_ne h _), if_neg (Ax.text_ne h _), if_neg (Ax.text_ne h _), readRef_lit h, readLit_text h]
    rfl
  | add => rfl
  | sat => rfl
  | weak => rfl
  | mult k => exact absurd (congrArg List.length hw) (by simp [Op.words])
  | div k => exact absurd (congrArg List.length hw) (by simp [Op.words])

theorem readOps_ok : ∀ {ops : List Op}, (∀ o ∈ ops, o.Valid) → readOps (ops.flatMap Op.words) = some ops
  | [], _ => rfl
  | o :: ops, h => by
    have ih := readOps_ok (ops := ops) fun x hx => h x (by simp [hx])
    have ho := h o (by simp)
    have single : o.words = [o.text] → readOps ((o :: ops).flatMap Op.words) = some (o :: ops) := by
      intro hw
      rw [List.flatMap_cons, hw]
      cases ops with
      | nil =>
        show readOps [o.text] = _
        rw [readOps, readOp_ok ho hw]; rfl
      | cons o' ops' =>
        obtain ⟨t, r, e, h1, h2⟩ := Op.first (h o' (by simp))
        rw [List.flatMap_cons, e] at ih ⊢
        show readOps (o.text :: t :: (r ++ _)) = _
        rw [readOps, if_neg h1, if_neg h2, readOp_ok ho hw]
        rw [List.cons_append] at ih
        rw [ih]
    cases o with
    | id i => exact single rfl
    | ax a => exact single rfl
    | add => exact single rfl
    | sat => exact single rfl
    | weak => exact single rfl
    | mult k =>
      show readOps (showNat k :: ['*'] :: ops.flatMap Op.words) = _
      rw [readOps, if_pos rfl, readPos_showNat ho, ih]
    | div k =>
      show readOps (showNat k :: ['d'] :: ops.flatMap Op.words) = _
      rw [readOps, if_neg (by decide), if_pos rfl, readPos_showNat ho, ih]

end ProofText
end RustSat
