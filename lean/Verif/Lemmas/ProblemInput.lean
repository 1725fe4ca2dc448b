import Verif.Model.ProblemInput
import Verif.Spec.ProblemInput
import Verif.Lemmas.Text
import Verif.Lemmas.Dimacs
import Verif.Lemmas.Opb
/-
Lemmas for the parsers of the inputs of the tool `encodings`.
-/
namespace RustSat
namespace Problems
open Text P Opb OpbSpec

/-! ### Characters -/

theorem Blank.ne {w : Text} (h : Blank w) {d : Char} (hd : isSpace d = false) : d ∉ w := by
  intro hm
  rw [h d hm] at hd
  cases hd

theorem Pad.newline {w : Text} (h : Pad w) : '\n' ∉ w := fun hm => (h _ hm).2 rfl

theorem Pad.ws {w : Text} (h : Pad w) : ∀ c ∈ w, isWs c = true := fun c hc => (h c hc).1

theorem noHead_append {f : Char → Bool} {w s : Text} (hw : ∀ c ∈ w, f c = false) (hs : NoHead f s) : NoHead f (w ++ s) := by
  cases w with
  | nil => exact hs
  | cons c w => exact noHead_cons (hw c List.mem_cons_self)

theorem blank_noDigit {w s : Text} (hw : Blank w) (hs : NoHead isDigit s) : NoHead isDigit (w ++ s) :=
  noHead_append (fun c hc => isDigit_of_isSpace (hw c hc)) hs

theorem newline_listRest {vs : List Nat} {t : Text} (h : ListRest vs t) : '\n' ∉ t := by
  induction h with
  | last v w hw =>
    simp only [List.mem_append, not_or, List.mem_singleton]
    exact ⟨newline_showNat v, hw.ne (by decide), by decide⟩
  | more v w w' vs t hw hw' _ ih =>
    simp only [List.mem_append, List.mem_cons, not_or]
    exact ⟨newline_showNat v, hw.ne (by decide), by decide, hw'.ne (by decide), ih⟩

theorem newline_listText {vs : List Nat} {t : Text} (h : ListText vs t) : '\n' ∉ t := by
  obtain ⟨w, r, rfl, hw, hr⟩ := h
  simp only [List.mem_append, List.mem_cons, not_or]
  exact ⟨by decide, hw.ne (by decide), newline_listRest hr⟩

theorem NoContent.newline {l : Text} (h : NoContent l) : '\n' ∉ l := by
  obtain h | ⟨w, t, rfl, hw, ht⟩ := h
  · exact h.newline
  · simp only [List.mem_append, List.mem_cons, not_or]
    exact ⟨hw.newline, by decide, ht⟩

theorem LineTail.newline {t : Text} (h : LineTail t) : '\n' ∉ t := by
  obtain ⟨c, e, rfl, he, hc⟩ := h
  simp only [List.mem_append, not_or]
  constructor
  · obtain rfl | ⟨s, rfl, h1, _⟩ := hc
    · exact List.not_mem_nil
    · simp only [List.mem_cons, not_or]
      exact ⟨by decide, h1⟩
  · obtain rfl | rfl := he <;> decide

theorem NumText.newline {n : Nat} {l : Text} (h : NumText n l) : '\n' ∉ l := by
  obtain ⟨w, w', t, rfl, hw, hw', ht⟩ := h
  simp only [List.mem_append, not_or]
  exact ⟨hw.ne (by decide), newline_showNat n, hw'.ne (by decide), ht.newline⟩

theorem Nums.newline {ns : List Nat} {L : List Text} (h : Nums ns L) : ∀ l ∈ L, '\n' ∉ l := by
  induction h with
  | nil => exact fun l hl => nomatch hl
  | skip l ns L hl _ ih =>
    intro x hx
    obtain rfl | hx := List.mem_cons.1 hx
    · exact hl.newline
    · exact ih x hx
  | num l n ns L hl _ ih =>
    intro x hx
    obtain rfl | hx := List.mem_cons.1 hx
    · exact hl.newline
    · exact ih x hx

theorem newline_sepRest {vs : List Nat} {t : Text} (h : SepRest vs t) : '\n' ∉ t := by
  induction h with
  | last v => exact newline_showNat v
  | more v w vs t hw _ _ ih =>
    simp only [List.mem_append, not_or]
    exact ⟨newline_showNat v, hw.ne (by decide), ih⟩

theorem SepLine.newline {vs : List Nat} {l : Text} (h : SepLine vs l) : '\n' ∉ l := by
  obtain ⟨w, t, p, rfl, hw, ht, hp⟩ := h
  simp only [List.mem_append, not_or]
  exact ⟨hw.ne (by decide), newline_sepRest ht, hp.newline⟩

/-! ### Lines -/

theorem readLines_unlines {L : List Text} (h : ∀ l ∈ L, '\n' ∉ l) (rest : Text) :
    readLines (unlines L ++ rest) = L.map (· ++ ['\n']) ++ readLines rest := by
  induction L with
  | nil => rfl
  | cons l L ih =>
    have e : unlines (l :: L) ++ rest = l ++ '\n' :: (unlines L ++ rest) := by
      simp [unlines]
    rw [e, readLines_line (h l List.mem_cons_self), ih fun l hl => h l (List.mem_cons_of_mem _ hl)]
    rfl

theorem trimStart_head {c : Char} {s : Text} (h : isWs c = false) : trimStart (c :: s) = c :: s := by
  simp [trimStart, List.dropWhile, h]

theorem trim_ws {s : Text} (h : ∀ c ∈ s, isWs c = true) : trim s = [] := by
  have : trimStart s = [] := by
    have := trimStart_append (w := s) (s := []) h
    rwa [List.append_nil] at this
  rw [trim, this]
  rfl

theorem skipLine_noContent {l : Text} (h : NoContent l) : skipLine (l ++ ['\n']) = true := by
  obtain h | ⟨w, t, rfl, hw, _⟩ := h
  · rw [skipLine, trim_newline, trim_ws h.ws]
    simp
  · rw [skipLine, List.append_assoc, trimStart_append hw.ws, List.cons_append, trimStart_head (by decide)]
    simp [startsWith]

theorem nextLine_skip {l : Text} {ls : List Text} (h : NoContent l) : nextLine ((l ++ ['\n']) :: ls) = nextLine ls := by
  rw [nextLine, if_pos (skipLine_noContent h)]

theorem nextLine_skips {L : List Text} {ls : List Text} (h : ∀ l ∈ L, NoContent l) :
    nextLine (L.map (· ++ ['\n']) ++ ls) = nextLine ls := by
  induction L with
  | nil => rfl
  | cons l L ih =>
    rw [List.map_cons, List.cons_append, nextLine_skip (h l List.mem_cons_self)]
    exact ih fun l hl => h l (List.mem_cons_of_mem _ hl)

theorem dropWhile_nil {f : Char → Bool} {l : Text} (h : l.dropWhile f = []) : ∀ x ∈ l, f x = true := by
  induction l with
  | nil => exact fun x hx => nomatch hx
  | cons c l ih =>
    by_cases hc : f c = true
    · rw [List.dropWhile_cons_of_pos hc] at h
      intro x hx
      obtain rfl | hx := List.mem_cons.1 hx
      · exact hc
      · exact ih h x hx
    · rw [List.dropWhile_cons_of_neg hc] at h
      cases h

/-- A text with a character that is not white space is not trimmed to nothing. -/
theorem trim_ne_nil {s : Text} {c : Char} (hm : c ∈ s) (hc : isWs c = false) : trim s ≠ [] := by
  obtain ⟨a, b, rfl⟩ := List.append_of_mem hm
  intro h
  have h1 : ∀ x ∈ trimStart (a ++ c :: b), isWs x = true := by
    intro x hx
    have h2 : (trimStart (a ++ c :: b)).reverse.dropWhile isWs = [] := by
      have := congrArg List.reverse h
      rwa [trim, trimEnd, List.reverse_reverse, List.reverse_nil] at this
    exact dropWhile_nil h2 x (List.mem_reverse.2 hx)
  have h3 : c ∈ trimStart (a ++ c :: b) := by
    have key : ∀ a : Text, c ∈ trimStart (a ++ c :: b) := by
      intro a
      induction a with
      | nil => rw [List.nil_append, trimStart_head hc]; exact List.mem_cons_self
      | cons d a ih =>
        by_cases hd : isWs d = true
        · simpa [trimStart, List.dropWhile, hd] using ih
        · simp [trimStart, List.dropWhile, hd]
    exact key a
  rw [h1 c h3] at hc
  cases hc

theorem lineTail_ok {t : Text} (h : LineTail t) : commentOrEnd (t ++ ['\n']) = .ok () [] := by
  obtain ⟨c, e, rfl, he, hc⟩ := h
  have hee : Eol (e ++ ['\n']) := by
    obtain rfl | rfl := he
    · exact .inr (.inl rfl)
    · exact .inr (.inr rfl)
  have hend : lineEnding (e ++ ['\n']) = .ok () [] := by
    obtain rfl | rfl := he <;> rfl
  rw [commentOrEnd, List.append_assoc]
  obtain rfl | ⟨s, rfl, h1, h2⟩ := hc
  · have hsp : space0 ([] ++ (e ++ ['\n'])) = .ok () (e ++ ['\n']) := by
      obtain rfl | rfl := he <;> rfl
    have hcom : (seqP (char '#') fun _ => tillLineEnding) (e ++ ['\n']) = .back := by
      obtain rfl | rfl := he <;> rfl
    rw [seqP_ok hsp, seqP_ok (opt_back hcom), hend]
  · have hsp : space0 ('#' :: s ++ (e ++ ['\n'])) = .ok () ('#' :: (s ++ (e ++ ['\n']))) := rfl
    have hcom : (seqP (char '#') fun _ => tillLineEnding) ('#' :: (s ++ (e ++ ['\n']))) = .ok s (e ++ ['\n']) := by
      rw [seqP_ok char_ok, tillLineEnding_eol h1 h2 hee]
    rw [seqP_ok hsp, seqP_ok (opt_ok hcom), hend]

theorem singleValue_ok {max n : Nat} {l : Text} (h : NumText n l) (hn : n ≤ max) :
    parse (singleValue max) (l ++ ['\n']) = some n := by
  obtain ⟨w, w', t, rfl, hw, hw', ht⟩ := h
  apply parse_ok
  have hsp : NoHead isSpace (t ++ ['\n']) := by
    obtain ⟨c, e, rfl, he, hc⟩ := ht
    obtain rfl | ⟨s, rfl, _, _⟩ := hc
    · obtain rfl | rfl := he
      · exact noHead_cons (by decide)
      · exact noHead_cons (by decide)
    · exact noHead_cons (by decide)
  have hdig : NoHead isDigit (t ++ ['\n']) := by
    obtain ⟨c, e, rfl, he, hc⟩ := ht
    obtain rfl | ⟨s, rfl, _, _⟩ := hc
    · obtain rfl | rfl := he
      · exact noHead_cons (by decide)
      · exact noHead_cons (by decide)
    · exact noHead_cons (by decide)
  simp only [List.append_assoc]
  rw [singleValue, seqP_ok (space0_ok hw (showNat_noSpace n _)), seqP_ok (decUint_showNat hn (blank_noDigit hw' hdig)),
    seqP_ok (space0_ok hw' hsp), seqP_ok (lineTail_ok ht)]
  rfl

theorem numText_not_skip {n : Nat} {l : Text} (h : NumText n l) : skipLine (l ++ ['\n']) = false := by
  obtain ⟨w, w', t, rfl, hw, hw', ht⟩ := h
  cases hs : showNat n with
  | nil => exact absurd hs (showNat_ne_nil n)
  | cons c r =>
    have hc : isDigit c = true := isDigit_showNat n c (by rw [hs]; exact List.mem_cons_self)
    have hcw : isWs c = false := isWs_of_isDigit hc
    have hc' : c ≠ '#' := ne_of_isDigit hc (by decide)
    rw [skipLine, List.append_assoc, trimStart_append fun c hc => isWs_of_isSpace (hw c hc)]
    rw [List.cons_append, List.cons_append, trimStart_head hcw, Bool.or_eq_false_iff]
    constructor
    · simp [startsWith, List.isPrefixOf, Ne.symm hc']
    · rw [List.isEmpty_eq_false_iff]
      exact trim_ne_nil (c := c) (by simp) hcw

theorem numLine_ok {max n : Nat} {ns : List Nat} {L : List Text} (h : Nums (n :: ns) L) (hn : n ≤ max) (ls : List Text) :
    ∃ L', Nums ns L' ∧ numLine max (L.map (· ++ ['\n']) ++ ls) = some (n, L'.map (· ++ ['\n']) ++ ls) := by
  generalize hns : n :: ns = ms at h
  induction h with
  | nil => cases hns
  | skip l ms L hl _ ih =>
    obtain ⟨L', h1, h2⟩ := ih hns
    refine ⟨L', h1, ?_⟩
    rw [List.map_cons, List.cons_append, numLine, nextLine_skip hl]
    exact h2
  | num l m ms L hl hL _ =>
    cases hns
    refine ⟨L, hL, ?_⟩
    rw [List.map_cons, List.cons_append, numLine, nextLine, numText_not_skip hl]
    simp only [Bool.false_eq_true, if_false, Option.bind_some, singleValue_ok hl hn, Option.map_some]

theorem Nums.nil_skips {L : List Text} (h : Nums [] L) : ∀ l ∈ L, NoContent l := by
  generalize hns : ([] : List Nat) = ms at h
  induction h with
  | nil => exact fun l hl => nomatch hl
  | skip l ms L hl _ ih =>
    intro x hx
    obtain rfl | hx := List.mem_cons.1 hx
    · exact hl
    · exact ih hns x hx
  | num => cases hns

/-! ### Lists -/

/-- Calling a callback for several values. -/
def foldCb {σ : Type} (cb : σ → Nat → Res Unit σ) : σ → List Nat → Res Unit σ
  | st, [] => .ok st
  | st, v :: vs =>
    match cb st v with
    | .ok st' => foldCb cb st' vs
    | .err e => .err e
    | .panic => .panic

theorem listGo_ok {σ : Type} {cb : σ → Nat → Res Unit σ} {vs : List Nat} {t : Text} (h : ListRest vs t) (hv : ∀ v ∈ vs, v ≤ usizeMax) :
    ∀ (f : Nat) (st st' : σ) (s : Text), vs.length ≤ f → foldCb cb st vs = .ok st' → listGo cb f st (t ++ s) = .ok st' s := by
  induction h with
  | last v w hw =>
    intro f st st' s hf hcb
    cases f with
    | zero => cases hf
    | succ f =>
      simp only [foldCb] at hcb
      have hd : NoHead isDigit (w ++ [']'] ++ s) := by
        rw [List.append_assoc]
        exact blank_noDigit hw (noHead_cons (by decide))
      rw [listGo, List.append_assoc]
      refine (seqP_ok (decUint_showNat (hv v List.mem_cons_self) hd)).trans ?_
      have hsep : listSep (w ++ [']'] ++ s) = .back := by
        rw [listSep, List.append_assoc, List.singleton_append, seqP_ok (space0_ok hw (noHead_cons (by decide)))]
        exact seqP_back (char_back (by decide))
      have hend : listEnd (w ++ [']'] ++ s) = .ok () s := by
        rw [listEnd, List.append_assoc, List.singleton_append, seqP_ok (space0_ok hw (noHead_cons (by decide)))]
        exact map_ok char_ok
      have hne : (trim (w ++ [']'] ++ s)).isEmpty = false := by
        rw [List.isEmpty_eq_false_iff]
        exact trim_ne_nil (c := ']') (by simp) (by decide)
      cases hc : cb st v with
      | ok st1 =>
        rw [hc] at hcb
        cases hcb
        simp only [hne, Bool.false_eq_true, if_false, hsep]
        exact map_ok hend
      | err e => rw [hc] at hcb; cases hcb
      | panic => rw [hc] at hcb; cases hcb
  | more v w w' vs t hw hw' hr ih =>
    intro f st st' s hf hcb
    cases f with
    | zero => cases hf
    | succ f =>
      simp only [foldCb] at hcb
      simp only [List.append_assoc, List.cons_append]
      rw [listGo]
      have hd : NoHead isDigit (w ++ ',' :: (w' ++ (t ++ s))) := blank_noDigit hw (noHead_cons (by decide))
      refine (seqP_ok (decUint_showNat (hv v List.mem_cons_self) hd)).trans ?_
      have hsp : NoHead isSpace (t ++ s) := by
        cases hr with
        | last v w _ => rw [List.append_assoc]; exact showNat_noSpace v _
        | more v w w' vs t _ _ _ => rw [List.append_assoc]; exact showNat_noSpace v _
      have hsep : listSep (w ++ ',' :: (w' ++ (t ++ s))) = .ok () (t ++ s) := by
        rw [listSep, seqP_ok (space0_ok hw (noHead_cons (by decide))), seqP_ok char_ok, space0_ok hw' hsp]
      have hne : (trim (w ++ ',' :: (w' ++ (t ++ s)))).isEmpty = false := by
        rw [List.isEmpty_eq_false_iff]
        exact trim_ne_nil (c := ',') (by simp) (by decide)
      cases hc : cb st v with
      | ok st1 =>
        rw [hc] at hcb
        simp only [hne, Bool.false_eq_true, if_false, hsep]
        exact ih (fun v hv' => hv v (List.mem_cons_of_mem _ hv')) f st1 st' s (by simpa using hf) hcb
      | err e => rw [hc] at hcb; cases hcb
      | panic => rw [hc] at hcb; cases hcb

theorem length_listRest {vs : List Nat} {t : Text} (h : ListRest vs t) : vs.length ≤ t.length := by
  induction h with
  | last v w _ => simp; omega
  | more v w w' vs t _ _ _ ih => simp; omega

theorem listP_ok {σ : Type} {cb : σ → Nat → Res Unit σ} {vs : List Nat} {t : Text} (h : ListText vs t) (hv : ∀ v ∈ vs, v ≤ usizeMax)
    {st st' : σ} (hcb : foldCb cb st vs = .ok st') (s : Text) : listP cb st (t ++ s) = .ok st' s := by
  obtain ⟨w, r, rfl, hw, hr⟩ := h
  have hsp : NoHead isSpace (r ++ s) := by
    cases hr with
    | last v w _ => rw [List.append_assoc]; exact showNat_noSpace v _
    | more v w w' vs t _ _ _ => rw [List.append_assoc]; exact showNat_noSpace v _
  simp only [listP, List.cons_append, List.append_assoc]
  refine (seqP_ok char_ok).trans ((seqP_ok (space0_ok hw hsp)).trans ?_)
  refine listGo_ok hr hv _ st st' s ?_ hcb
  have := length_listRest hr
  rw [List.length_append]
  omega

theorem ListText.head {vs : List Nat} {t : Text} (h : ListText vs t) : ∃ r, t = '[' :: r := by
  obtain ⟨w, r, rfl, _⟩ := h
  exact ⟨_, rfl⟩

/-! ### Knapsacks -/

theorem foldCb_modify {α : Type} (cb : Nat × List α → Nat → Res Unit (Nat × List α)) (g : α → Nat → α)
    (hcb : ∀ i l v, i < l.length → cb (i, l) v = .ok (i + 1, l.modify i fun x => g x v)) :
    ∀ (vs : List Nat) (todo done : List α), vs.length = todo.length →
      foldCb cb (done.length, done ++ todo) vs = .ok (done.length + vs.length, done ++ List.zipWith g todo vs) := by
  intro vs
  induction vs with
  | nil =>
    intro todo done h
    have : todo = [] := List.length_eq_zero_iff.1 h.symm
    subst this
    simp [foldCb]
  | cons v vs ih =>
    intro todo done h
    cases todo with
    | nil => simp at h
    | cons x todo =>
      have e : (done ++ x :: todo).modify done.length (fun x => g x v) = (done ++ [g x v]) ++ todo := by
        clear ih h
        induction done with
        | nil => rfl
        | cons y done ih => simpa using ih
      rw [foldCb, hcb _ _ _ (by simp)]
      simp only [e]
      have := ih todo (done ++ [g x v]) (by simpa using h)
      rw [List.length_append, List.length_singleton] at this
      rw [this]
      simp [Nat.add_assoc, Nat.add_comm 1]

theorem foldCb_pushValue {items : List KnapsackItem} {vs : List Nat} (h : vs.length = items.length) :
    foldCb pushValue (0, items) vs = .ok (vs.length, List.zipWith (fun it v => { it with values := it.values ++ [v] }) items vs) := by
  have := foldCb_modify pushValue (fun it v => { it with values := it.values ++ [v] })
    (fun i l v hi => by simp only [pushValue]; rw [if_neg (by omega)]) vs items [] h
  simpa using this

theorem foldCb_setWeight {items : List KnapsackItem} {vs : List Nat} (h : vs.length = items.length) :
    foldCb setWeight (0, items) vs = .ok (vs.length, List.zipWith (fun it v => { it with weight := v }) items vs) := by
  have := foldCb_modify setWeight (fun it v => { it with weight := v })
    (fun i l v hi => by simp only [setWeight]; rw [if_neg (by omega)]) vs items [] h
  simpa using this

/-- Pushing a row of values. -/
def pushRow (items : List KnapsackItem) (row : List Nat) : List KnapsackItem :=
  List.zipWith (fun it v => { it with values := it.values ++ [v] }) items row

theorem trim_content {p s p' : Text} {c d : Char} {s' r : Text} (hp : Pad p) (hp' : Pad p') (h1 : s = c :: r) (h2 : s = s' ++ [d])
    (hc : isWs c = false) (hd : isWs d = false) : trim (p ++ (s ++ p') ++ ['\n']) = s := by
  rw [trim_newline]
  have ht : Tight s := by
    refine ⟨?_, ?_⟩
    · intro x y e
      rw [h1] at e
      cases e
      exact hc
    · intro x y e
      rw [h2] at e
      have := List.append_inj_right' e rfl
      cases this
      exact hd
  have := trim_pad ht hp.ws hp'.ws
  simpa [List.append_assoc] using this

theorem kpRows_skip {b : Bool} {items : List KnapsackItem} {l : Text} {ls : List Text} (h : NoContent l) :
    kpRows b items ((l ++ ['\n']) :: ls) = kpRows b items ls := by
  rw [kpRows, if_pos]
  have := skipLine_noContent h
  rw [trim_newline]
  obtain h | ⟨w, t, rfl, hw, ht⟩ := h
  · rw [trim_ws h.ws]
    simp
  · have : ∃ r, trim (w ++ '#' :: t) = '#' :: r := by
      rw [trim, trimStart_append hw.ws, trimStart_head (by decide), trimEnd]
      have key : ∀ s : Text, ∃ r, ((s ++ ['#']).dropWhile isWs).reverse = '#' :: r := by
        intro s
        induction s with
        | nil => exact ⟨[], rfl⟩
        | cons c s ih =>
          by_cases hc : isWs c = true
          · rw [List.cons_append, List.dropWhile_cons_of_pos hc]
            exact ih
          · rw [List.cons_append, List.dropWhile_cons_of_neg hc]
            exact ⟨s.reverse ++ [c], by simp⟩
      rw [List.reverse_cons]
      exact key t.reverse
    obtain ⟨r, e⟩ := this
    rw [e]
    simp [startsWith]

theorem kpRows_line {b : Bool} {items : List KnapsackItem} {p p' x w : Text} {row : List Nat} (hp : Pad p) (hp' : Pad p')
    (hx : ListText row x) (hw : Blank w) (hv : ∀ v ∈ row, v ≤ usizeMax) (hl : row.length = items.length) (ls : List Text) :
    kpRows b items ((p ++ ((if b then [] else ['[']) ++ (x ++ (w ++ [','])) ++ p') ++ ['\n']) :: ls) = kpRows true (pushRow items row) ls ∧
    kpRows b items ((p ++ ((if b then [] else ['[']) ++ (x ++ (w ++ [']'])) ++ p') ++ ['\n']) :: ls) = some (pushRow items row, ls) := by
  obtain ⟨r, rfl⟩ := hx.head
  have hlist := fun s => listP_ok hx hv (foldCb_pushValue (items := items) hl) s
  have key : ∀ d, isWs d = false →
      trim (p ++ ((if b then [] else ['[']) ++ ('[' :: r ++ (w ++ [d])) ++ p') ++ ['\n']) =
        (if b then [] else ['[']) ++ ('[' :: r ++ (w ++ [d])) := by
    intro d hd
    cases b with
    | true => exact trim_content (c := '[') (r := r ++ (w ++ [d])) (s' := '[' :: r ++ w) hp hp' rfl (by simp) (by decide) hd
    | false => exact trim_content (c := '[') (r := '[' :: r ++ (w ++ [d])) (s' := '[' :: '[' :: r ++ w) hp hp' rfl (by simp) (by decide) hd
  have hstart : ∀ d, (startsWith ['#'] ((if b then [] else ['[']) ++ ('[' :: r ++ (w ++ [d]))) ||
      ((if b then [] else ['[']) ++ ('[' :: r ++ (w ++ [d]))).isEmpty) = false := by
    intro d
    cases b <;> simp [startsWith, List.isPrefixOf]
  have hstrip : ∀ d, stripOuter b ((if b then [] else ['[']) ++ ('[' :: r ++ (w ++ [d]))) = some ('[' :: r ++ (w ++ [d])) := by
    intro d
    cases b <;> simp [stripOuter, startsWith, List.isPrefixOf]
  constructor
  · rw [kpRows, key ',' (by decide)]
    have hcomma : parse (seqP space0 fun _ => char ',') (w ++ [',']) = some ',' := by
      apply parse_ok
      rw [seqP_ok (space0_ok hw (noHead_cons (by decide)))]
      exact char_ok
    simp only [hstart, Bool.false_eq_true, if_false, hstrip, hlist, hcomma, Option.isSome_some, if_true]
    rfl
  · rw [kpRows, key ']' (by decide)]
    have hcomma : parse (seqP space0 fun _ => char ',') (w ++ [']']) = none := by
      rw [parse, seqP_ok (space0_ok hw (noHead_cons (by decide))), char_back (by decide)]
    have hend : parse listEnd (w ++ [']']) = some () := by
      apply parse_ok
      rw [listEnd, seqP_ok (space0_ok hw (noHead_cons (by decide)))]
      exact map_ok char_ok
    simp only [hstart, Bool.false_eq_true, if_false, hstrip, hlist, hcomma, Option.isSome_none, hend, Option.isSome_some, if_true]
    rfl

theorem length_pushRow {items : List KnapsackItem} {row : List Nat} (h : row.length = items.length) :
    (pushRow items row).length = items.length := by
  simp [pushRow, h]

theorem kpRows_ok {b : Bool} {rows : List (List Nat)} {L : List Text} (h : Rows b rows L) :
    ∀ (items : List KnapsackItem) (ls : List Text), (∀ row ∈ rows, row.length = items.length ∧ ∀ v ∈ row, v ≤ usizeMax) →
      kpRows b items (L.map (· ++ ['\n']) ++ ls) = some (rows.foldl pushRow items, ls) := by
  induction h with
  | skip b l rows L hl _ ih =>
    intro items ls hr
    rw [List.map_cons, List.cons_append, kpRows_skip hl]
    exact ih items ls hr
  | more b p p' x w row rows L hp hp' hx hw _ ih =>
    intro items ls hr
    have h0 := hr row List.mem_cons_self
    rw [List.map_cons, List.cons_append, (kpRows_line hp hp' hx hw h0.2 h0.1 _).1, List.foldl_cons]
    refine ih _ ls fun row' hr' => ?_
    rw [length_pushRow h0.1]
    exact hr row' (List.mem_cons_of_mem _ hr')
  | last b p p' x w row hp hp' hx hw =>
    intro items ls hr
    have h0 := hr row List.mem_cons_self
    rw [List.map_cons, List.cons_append, (kpRows_line hp hp' hx hw h0.2 h0.1 _).2]
    rfl

theorem Rows.newline {b : Bool} {rows : List (List Nat)} {L : List Text} (h : Rows b rows L) : ∀ l ∈ L, '\n' ∉ l := by
  have hb : ∀ b : Bool, '\n' ∉ (if b then [] else ['[']) := by intro b; cases b <;> decide
  induction h with
  | skip b l rows L hl _ ih =>
    intro y hy
    obtain rfl | hy := List.mem_cons.1 hy
    · exact hl.newline
    · exact ih y hy
  | more b p p' x w row rows L hp hp' hx hw _ ih =>
    intro y hy
    obtain rfl | hy := List.mem_cons.1 hy
    · simp only [List.mem_append, not_or, List.mem_singleton]
      exact ⟨hp.newline, ⟨hb b, newline_listText hx, hw.ne (by decide), by decide⟩, hp'.newline⟩
    · exact ih y hy
  | last b p p' x w row hp hp' hx hw =>
    intro y hy
    rw [List.mem_singleton] at hy
    subst hy
    simp only [List.mem_append, not_or, List.mem_singleton]
    exact ⟨hp.newline, ⟨hb b, newline_listText hx, hw.ne (by decide), by decide⟩, hp'.newline⟩

theorem pushRows_all (items : List KnapsackItem) (n : Nat) (h : ∀ it ∈ items, it.values.length = n) : ∀ k, k ≤ n →
    ((List.range k).map fun k => items.map fun it => it.values.getD k 0).foldl pushRow (List.replicate items.length ⟨0, []⟩) =
      items.map fun it => ⟨0, it.values.take k⟩ := by
  intro k
  induction k with
  | zero =>
    intro _
    simp [List.map_const']
  | succ k ih =>
    intro hk
    rw [List.range_succ, List.map_append, List.foldl_append, ih (by omega), List.map_singleton, List.foldl_cons, List.foldl_nil, pushRow,
      List.zipWith_map, List.zipWith_self]
    apply List.map_congr_left
    intro it hit
    have hl := h it hit
    rw [List.take_add_one, List.getD_eq_getElem?_getD, List.getElem?_eq_getElem (by omega), Option.getD_some, Option.toList_some]

theorem ListText.last {vs : List Nat} {x : Text} (hx : ListText vs x) : ∃ s', x = s' ++ [']'] := by
  obtain ⟨w, q, rfl, _, hq⟩ := hx
  have key : ∀ {vs : List Nat} {t : Text}, ListRest vs t → ∃ s', t = s' ++ [']'] := by
    intro vs t h
    induction h with
    | last v w _ => exact ⟨showNat v ++ w, by simp⟩
    | more v w w' vs t _ _ _ ih =>
      obtain ⟨s', rfl⟩ := ih
      exact ⟨showNat v ++ (w ++ ',' :: (w' ++ s')), by simp⟩
  obtain ⟨s', rfl⟩ := key hq
  exact ⟨'[' :: (w ++ s'), by simp⟩

theorem kpWeights_ok {items : List KnapsackItem} {L3 : List Text} {p x p' : Text} {ws : List Nat} (h3 : ∀ l ∈ L3, NoContent l)
    (hp : Pad p) (hp' : Pad p') (hx : ListText ws x) (hl : ws.length = items.length) (hv : ∀ v ∈ ws, v ≤ usizeMax) (ls : List Text) :
    kpWeights items (L3.map (· ++ ['\n']) ++ ((p ++ (x ++ p') ++ ['\n']) :: ls)) =
      some (List.zipWith (fun it v => { it with weight := v }) items ws) := by
  obtain ⟨r, hr⟩ := hx.head
  obtain ⟨s', hs'⟩ := hx.last
  have ht : trim (p ++ (x ++ p') ++ ['\n']) = x := trim_content hp hp' hr hs' (by decide) (by decide)
  have hsk : skipLine (p ++ (x ++ p') ++ ['\n']) = false := by
    have e : trimStart (p ++ (x ++ p') ++ ['\n']) = x ++ (p' ++ ['\n']) := by
      rw [List.append_assoc, trimStart_append hp.ws, hr, List.append_assoc, List.cons_append, trimStart_head (by decide)]
    rw [skipLine, ht, e, hr]
    simp [startsWith, List.isPrefixOf]
  rw [kpWeights, nextLine_skips h3, nextLine, hsk]
  have := listP_ok hx hv (foldCb_setWeight (items := items) hl) []
  rw [List.append_nil] at this
  simp only [Bool.false_eq_true, if_false, Option.bind_some, ht, parse_ok this, Option.map_some]

/-! ### Lists with too many values -/

theorem listGo_err {σ : Type} {cb : σ → Nat → Res Unit σ} {vs : List Nat} {t : Text} (h : ListRest vs t) (hv : ∀ v ∈ vs, v ≤ usizeMax) :
    ∀ (f : Nat) (st : σ) (s : Text), vs.length ≤ f → foldCb cb st vs = .err () → ∀ st' r, listGo cb f st (t ++ s) ≠ .ok st' r := by
  induction h with
  | last v w hw =>
    intro f st s hf hcb st' r
    cases f with
    | zero => cases hf
    | succ f =>
      simp only [foldCb] at hcb
      have hd : NoHead isDigit (w ++ [']'] ++ s) := by
        rw [List.append_assoc]
        exact blank_noDigit hw (noHead_cons (by decide))
      rw [listGo, List.append_assoc]
      intro hok
      have hok := (seqP_ok (decUint_showNat (hv v List.mem_cons_self) hd)).symm.trans hok
      cases hc : cb st v with
      | ok st1 => rw [hc] at hcb; cases hcb
      | err e => simp only [hc] at hok; cases hok
      | panic => rw [hc] at hcb; cases hcb
  | more v w w' vs t hw hw' hr ih =>
    intro f st s hf hcb st' r
    cases f with
    | zero => cases hf
    | succ f =>
      simp only [foldCb] at hcb
      simp only [List.append_assoc, List.cons_append]
      rw [listGo]
      have hd : NoHead isDigit (w ++ ',' :: (w' ++ (t ++ s))) := blank_noDigit hw (noHead_cons (by decide))
      intro hok
      have hok := (seqP_ok (decUint_showNat (hv v List.mem_cons_self) hd)).symm.trans hok
      have hsp : NoHead isSpace (t ++ s) := by
        cases hr with
        | last v w _ => rw [List.append_assoc]; exact showNat_noSpace v _
        | more v w w' vs t _ _ _ => rw [List.append_assoc]; exact showNat_noSpace v _
      have hsep : listSep (w ++ ',' :: (w' ++ (t ++ s))) = .ok () (t ++ s) := by
        rw [listSep, seqP_ok (space0_ok hw (noHead_cons (by decide))), seqP_ok char_ok, space0_ok hw' hsp]
      have hne : (trim (w ++ ',' :: (w' ++ (t ++ s)))).isEmpty = false := by
        rw [List.isEmpty_eq_false_iff]
        exact trim_ne_nil (c := ',') (by simp) (by decide)
      cases hc : cb st v with
      | ok st1 =>
        rw [hc] at hcb
        simp only [hc, hne, Bool.false_eq_true, if_false, hsep] at hok
        exact ih (fun v hv' => hv v (List.mem_cons_of_mem _ hv')) f st1 s (by simpa using hf) hcb _ _ hok
      | err e => simp only [hc] at hok; cases hok
      | panic => rw [hc] at hcb; cases hcb

theorem listP_err {σ : Type} {cb : σ → Nat → Res Unit σ} {vs : List Nat} {t : Text} (h : ListText vs t) (hv : ∀ v ∈ vs, v ≤ usizeMax)
    {st : σ} (hcb : foldCb cb st vs = .err ()) (s : Text) (st' : σ) (r' : Text) : listP cb st (t ++ s) ≠ .ok st' r' := by
  obtain ⟨w, r, rfl, hw, hr⟩ := h
  have hsp : NoHead isSpace (r ++ s) := by
    cases hr with
    | last v w _ => rw [List.append_assoc]; exact showNat_noSpace v _
    | more v w w' vs t _ _ _ => rw [List.append_assoc]; exact showNat_noSpace v _
  intro hok
  simp only [listP, List.cons_append, List.append_assoc] at hok
  have hok := ((seqP_ok char_ok).trans (seqP_ok (space0_ok hw hsp))).symm.trans hok
  refine listGo_err hr hv _ st s ?_ hcb _ _ hok
  have := length_listRest hr
  rw [List.length_append]
  omega

theorem foldCb_modify_err {α : Type} (cb : Nat × List α → Nat → Res Unit (Nat × List α)) (g : α → Nat → α)
    (hcb : ∀ i l v, i < l.length → cb (i, l) v = .ok (i + 1, l.modify i fun x => g x v))
    (herr : ∀ i l v, l.length ≤ i → cb (i, l) v = .err ()) :
    ∀ (vs : List Nat) (i : Nat) (l : List α), i ≤ l.length → l.length < i + vs.length → foldCb cb (i, l) vs = .err () := by
  intro vs
  induction vs with
  | nil =>
    intro i l h h'
    simp at h'
    omega
  | cons v vs ih =>
    intro i l h h'
    by_cases hi : i < l.length
    · rw [foldCb, hcb _ _ _ hi]
      exact ih _ _ (by rw [List.length_modify]; omega) (by simp at h' ⊢; omega)
    · rw [foldCb, herr _ _ _ (by omega)]

theorem foldCb_pushValue_err {items : List KnapsackItem} {vs : List Nat} (h : items.length < vs.length) :
    foldCb pushValue (0, items) vs = .err () :=
  foldCb_modify_err pushValue (fun it v => { it with values := it.values ++ [v] })
    (fun i l v hi => by simp only [pushValue]; rw [if_neg (by omega)]) (fun i l v hi => by simp only [pushValue]; rw [if_pos hi]) vs 0 items
    (Nat.zero_le _) (by omega)

theorem foldCb_setWeight_err {items : List KnapsackItem} {vs : List Nat} (h : items.length < vs.length) :
    foldCb setWeight (0, items) vs = .err () :=
  foldCb_modify_err setWeight (fun it v => { it with weight := v })
    (fun i l v hi => by simp only [setWeight]; rw [if_neg (by omega)]) (fun i l v hi => by simp only [setWeight]; rw [if_pos hi]) vs 0 items
    (Nat.zero_le _) (by omega)

theorem kpRows_long_line {b : Bool} {items : List KnapsackItem} {p p' x w : Text} {row : List Nat} {d : Char} (hp : Pad p) (hp' : Pad p')
    (hx : ListText row x) (hv : ∀ v ∈ row, v ≤ usizeMax) (hl : items.length < row.length) (hd : isWs d = false) (ls : List Text) :
    kpRows b items ((p ++ ((if b then [] else ['[']) ++ (x ++ (w ++ [d])) ++ p') ++ ['\n']) :: ls) = none := by
  obtain ⟨r, rfl⟩ := hx.head
  have hlist := fun s => listP_err hx hv (foldCb_pushValue_err (items := items) hl) s
  have key : trim (p ++ ((if b then [] else ['[']) ++ ('[' :: r ++ (w ++ [d])) ++ p') ++ ['\n']) =
        (if b then [] else ['[']) ++ ('[' :: r ++ (w ++ [d])) := by
    cases b with
    | true => exact trim_content (c := '[') (r := r ++ (w ++ [d])) (s' := '[' :: r ++ w) hp hp' rfl (by simp) (by decide) hd
    | false => exact trim_content (c := '[') (r := '[' :: r ++ (w ++ [d])) (s' := '[' :: '[' :: r ++ w) hp hp' rfl (by simp) (by decide) hd
  have hstart : (startsWith ['#'] ((if b then [] else ['[']) ++ ('[' :: r ++ (w ++ [d]))) ||
      ((if b then [] else ['[']) ++ ('[' :: r ++ (w ++ [d]))).isEmpty) = false := by
    cases b <;> simp [startsWith, List.isPrefixOf]
  have hstrip : stripOuter b ((if b then [] else ['[']) ++ ('[' :: r ++ (w ++ [d]))) = some ('[' :: r ++ (w ++ [d])) := by
    cases b <;> simp [stripOuter, startsWith, List.isPrefixOf]
  rw [kpRows, key]
  simp only [hstart, Bool.false_eq_true, if_false, hstrip]
  cases hres : listP pushValue (0, items) ('[' :: r ++ (w ++ [d])) with
  | ok st r' => exact absurd hres (hlist _ _ _)
  | back => rfl
  | cut => rfl
  | panic => rfl

theorem kpRows_long {b : Bool} {rows : List (List Nat)} {L : List Text} (h : Rows b rows L) : ∀ (items : List KnapsackItem) (ls : List Text),
    (∀ row ∈ rows, items.length ≤ row.length ∧ ∀ v ∈ row, v ≤ usizeMax) → (∃ row ∈ rows, items.length < row.length) →
    kpRows b items (L.map (· ++ ['\n']) ++ ls) = none := by
  induction h with
  | skip b l rows L hl _ ih =>
    intro items ls hr hex
    rw [List.map_cons, List.cons_append, kpRows_skip hl]
    exact ih items ls hr hex
  | more b p p' x w row rows L hp hp' hx hw _ ih =>
    intro items ls hr hex
    have h0 := hr row List.mem_cons_self
    rw [List.map_cons, List.cons_append]
    by_cases hlen : items.length < row.length
    · exact kpRows_long_line hp hp' hx h0.2 hlen (by decide) _
    · have e : row.length = items.length := by omega
      rw [(kpRows_line hp hp' hx hw h0.2 e _).1]
      refine ih _ ls (fun row' hr' => ?_) ?_
      · rw [length_pushRow e]
        exact hr row' (List.mem_cons_of_mem _ hr')
      · obtain ⟨row', hm, hlt⟩ := hex
        obtain rfl | hm := List.mem_cons.1 hm
        · exact absurd hlt hlen
        · exact ⟨row', hm, by rw [length_pushRow e]; exact hlt⟩
  | last b p p' x w row hp hp' hx hw =>
    intro items ls hr hex
    have h0 := hr row List.mem_cons_self
    obtain ⟨row', hm, hlt⟩ := hex
    rw [List.mem_singleton] at hm
    subst hm
    rw [List.map_cons, List.cons_append]
    exact kpRows_long_line hp hp' hx h0.2 hlt (by decide) _

theorem kpWeights_long {items : List KnapsackItem} {L3 : List Text} {p x p' : Text} {ws : List Nat} (h3 : ∀ l ∈ L3, NoContent l)
    (hp : Pad p) (hp' : Pad p') (hx : ListText ws x) (hl : items.length < ws.length) (hv : ∀ v ∈ ws, v ≤ usizeMax) (ls : List Text) :
    kpWeights items (L3.map (· ++ ['\n']) ++ ((p ++ (x ++ p') ++ ['\n']) :: ls)) = none := by
  obtain ⟨r, hr⟩ := hx.head
  obtain ⟨s', hs'⟩ := hx.last
  have ht : trim (p ++ (x ++ p') ++ ['\n']) = x := trim_content hp hp' hr hs' (by decide) (by decide)
  have hsk : skipLine (p ++ (x ++ p') ++ ['\n']) = false := by
    have e : trimStart (p ++ (x ++ p') ++ ['\n']) = x ++ (p' ++ ['\n']) := by
      rw [List.append_assoc, trimStart_append hp.ws, hr, List.append_assoc, List.cons_append, trimStart_head (by decide)]
    rw [skipLine, ht, e, hr]
    simp [startsWith, List.isPrefixOf]
  rw [kpWeights, nextLine_skips h3, nextLine, hsk]
  have := listP_err hx hv (foldCb_setWeight_err (items := items) hl) []
  rw [List.append_nil] at this
  simp only [Bool.false_eq_true, if_false, Option.bind_some, ht]
  cases hres : listP setWeight (0, items) x with
  | ok st r' => exact absurd hres (this _ _)
  | back => simp [parse, hres]
  | cut => simp [parse, hres]
  | panic => simp [parse, hres]

/-! ### Knapsacks in the format of vOptLib -/

theorem readNums_ok {ns ms : List Nat} (hn : ∀ n ∈ ns, n ≤ usizeMax) : ∀ {L : List Text}, Nums (ns ++ ms) L → ∀ ls : List Text,
    ∃ L', Nums ms L' ∧ readNums ns.length (L.map (· ++ ['\n']) ++ ls) = some (ns, L'.map (· ++ ['\n']) ++ ls) := by
  induction ns with
  | nil => exact fun {L} h ls => ⟨L, h, rfl⟩
  | cons n ns ih =>
    intro L h ls
    obtain ⟨L1, h1, e1⟩ := numLine_ok h (hn n List.mem_cons_self) ls
    obtain ⟨L2, h2, e2⟩ := ih (fun n h => hn n (List.mem_cons_of_mem _ h)) h1 ls
    refine ⟨L2, h2, ?_⟩
    rw [List.length_cons, readNums, e1, Option.bind_some, e2]
    rfl

theorem voptObjs_ok {ms : List Nat} : ∀ (rows : List (List Nat)) (items : List KnapsackItem) (L : List Text) (ls : List Text),
    (∀ row ∈ rows, row.length = items.length ∧ ∀ v ∈ row, v ≤ usizeMax) → Nums (rows.flatten ++ ms) L →
    ∃ L', Nums ms L' ∧ voptObjs rows.length items (L.map (· ++ ['\n']) ++ ls) = some (rows.foldl pushRow items, L'.map (· ++ ['\n']) ++ ls) := by
  intro rows
  induction rows with
  | nil => exact fun items L ls _ h => ⟨L, h, rfl⟩
  | cons row rows ih =>
    intro items L ls hr h
    have h0 := hr row List.mem_cons_self
    rw [List.flatten_cons, List.append_assoc] at h
    obtain ⟨L1, h1, e1⟩ := readNums_ok h0.2 h ls
    obtain ⟨L2, h2, e2⟩ := ih (pushRow items row) L1 ls (fun row' hr' => by
      rw [length_pushRow h0.1]; exact hr row' (List.mem_cons_of_mem _ hr')) h1
    refine ⟨L2, h2, ?_⟩
    rw [List.length_cons, voptObjs, ← h0.1, e1, Option.bind_some]
    exact e2

theorem nextLine_num {n : Nat} {ns : List Nat} {L : List Text} (h : Nums (n :: ns) L) (ls : List Text) :
    ∃ l L', NumText n l ∧ Nums ns L' ∧ nextLine (L.map (· ++ ['\n']) ++ ls) = some (l ++ ['\n'], L'.map (· ++ ['\n']) ++ ls) := by
  generalize hns : n :: ns = ms at h
  induction h with
  | nil => cases hns
  | skip l ms L hl _ ih =>
    obtain ⟨l', L', h0, h1, h2⟩ := ih hns
    refine ⟨l', L', h0, h1, ?_⟩
    rw [List.map_cons, List.cons_append, nextLine_skip hl]
    exact h2
  | num l m ms L hl hL _ =>
    cases hns
    refine ⟨l, L, hl, hL, ?_⟩
    rw [List.map_cons, List.cons_append, nextLine, numText_not_skip hl]
    simp

/-! ### Facility location -/

theorem sepRest_ne_nil {vs : List Nat} {t : Text} (h : SepRest vs t) : t ≠ [] := by
  cases h with
  | last v => exact showNat_ne_nil v
  | more v w vs t _ _ _ =>
    intro e
    exact showNat_ne_nil v (List.append_eq_nil_iff.1 e).1

theorem sepRest_noSpace {vs : List Nat} {t : Text} (h : SepRest vs t) (s : Text) : NoHead isSpace (t ++ s) := by
  cases h with
  | last v => exact showNat_noSpace v _
  | more v w vs t _ _ _ => rw [List.append_assoc]; exact showNat_noSpace v _

theorem length_sepRest {vs : List Nat} {t : Text} (h : SepRest vs t) : vs.length ≤ t.length := by
  induction h with
  | last v =>
    have := List.length_pos_iff.2 (showNat_ne_nil v)
    simp only [List.length_singleton]
    omega
  | more v w vs t _ hw _ ih =>
    have := List.length_pos_iff.2 hw
    simp
    omega

theorem sepGo_ok {vs : List Nat} {t : Text} (h : SepRest vs t) (hv : ∀ v ∈ vs, v ≤ usizeMax) :
    ∀ f : Nat, vs.length ≤ f → sepGo f t = .ok vs [] := by
  induction h with
  | last v =>
    intro f hf
    cases f with
    | zero => cases hf
    | succ f =>
      have := decUint_showNat (hv v List.mem_cons_self) (s := []) (noHead_nil _)
      rw [List.append_nil] at this
      rw [sepGo]
      exact (seqP_ok this).trans rfl
  | more v w vs t hw hn ht ih =>
    intro f hf
    cases f with
    | zero => cases hf
    | succ f =>
      have hd : NoHead isDigit (w ++ t) := by
        cases w with
        | nil => exact absurd rfl hn
        | cons c w => exact noHead_cons (isDigit_of_isSpace (hw c List.mem_cons_self))
      rw [sepGo]
      refine (seqP_ok (decUint_showNat (hv v List.mem_cons_self) hd)).trans ?_
      have hs := sepRest_noSpace ht []
      rw [List.append_nil] at hs
      have hne : t.isEmpty = false := by
        rw [List.isEmpty_eq_false_iff]
        exact sepRest_ne_nil ht
      simp only [space1_ok hn hw hs, hne, Bool.false_eq_true, if_false]
      exact map_ok (ih (fun v hv' => hv v (List.mem_cons_of_mem _ hv')) f (by simpa using hf))

theorem sepRest_last {vs : List Nat} {t : Text} (h : SepRest vs t) : ∃ s c, t = s ++ [c] ∧ isWs c = false := by
  induction h with
  | last v =>
    have h := (showNat v).dropLast_concat_getLast (showNat_ne_nil v)
    refine ⟨_, _, h.symm, isWs_of_isDigit (isDigit_showNat v _ (List.getLast_mem _))⟩
  | more v w vs t _ _ _ ih =>
    obtain ⟨s, c, rfl, hc⟩ := ih
    exact ⟨showNat v ++ (w ++ s), c, by simp, hc⟩

theorem sepLine_ok {vs : List Nat} {l : Text} (h : SepLine vs l) (hv : ∀ v ∈ vs, v ≤ usizeMax) :
    parse sepP (trimEnd (l ++ ['\n'])) = some vs := by
  obtain ⟨w, t, p, rfl, hw, ht, hp⟩ := h
  obtain ⟨s, c, rfl, hc⟩ := sepRest_last ht
  have e : trimEnd (w ++ (s ++ [c] ++ p) ++ ['\n']) = w ++ (s ++ [c]) := by
    have e1 : w ++ (s ++ [c] ++ p) ++ ['\n'] = w ++ (s ++ [c]) ++ (p ++ ['\n']) := by simp
    have h1 : ∀ c ∈ p ++ ['\n'], isWs c = true := by
      intro d hd
      obtain hd | hd := List.mem_append.1 hd
      · exact hp.ws d hd
      · rw [List.mem_singleton] at hd
        subst hd
        decide
    rw [e1, trimEnd_append h1, trimEnd]
    simp [hc]
  rw [e]
  apply parse_ok
  have hs := sepRest_noSpace ht []
  rw [List.append_nil] at hs
  refine (seqP_ok (space0_ok hw hs)).trans ?_
  exact sepGo_ok ht hv _ (Nat.le_succ_of_le (length_sepRest ht))

theorem plainRows_ok {facilities : Nat} {f : Nat → Nat → Nat} (hf : ∀ i j, f i j ≤ usizeMax) : ∀ (C : List Text) (k : Nat) (ls : List Text),
    (∀ (i : Nat) l, C[i]? = some l → SepLine ((List.range facilities).map (f (k + i))) l) →
    plainRows C.length (C.map (· ++ ['\n']) ++ ls) =
      some ((List.range' k C.length).flatMap (fun i => (List.range facilities).map (f i)), ls) := by
  intro C
  induction C with
  | nil => exact fun k ls _ => rfl
  | cons l C ih =>
    intro k ls h
    have h0 := h 0 l rfl
    rw [List.map_cons, List.cons_append, List.length_cons, plainRows, sepLine_ok h0 (by
      intro v hv
      obtain ⟨j, _, rfl⟩ := List.mem_map.1 hv
      exact hf _ _)]
    rw [Option.bind_some, ih (k + 1) ls (fun i l hl => by
      have := h (i + 1) l (by simpa using hl)
      rwa [show k + (i + 1) = k + 1 + i by omega] at this)]
    rw [Option.map_some, List.range'_succ, List.flatMap_cons]
    rfl

/-- Finding an entry in rows of the same length. -/
theorem getElem?_rows {α : Type} {n : Nat} {f : Nat → List α} (hf : ∀ i, (f i).length = n) : ∀ (m k i j : Nat), i < m → j < n →
    ∀ rest : List α, ((List.range' k m).flatMap f ++ rest)[i * n + j]? = (f (k + i))[j]? := by
  intro m
  induction m with
  | zero => exact fun k i j h => absurd h (Nat.not_lt_zero _)
  | succ m ih =>
    intro k i j hi hj rest
    rw [List.range'_succ, List.flatMap_cons, List.append_assoc]
    cases i with
    | zero =>
      rw [Nat.zero_mul, Nat.zero_add, List.getElem?_append_left (by rw [hf]; exact hj)]
      rfl
    | succ i =>
      rw [Nat.succ_mul, List.getElem?_append_right (by rw [hf]; omega), hf]
      rw [show i * n + n + j - n = i * n + j by omega, ih (k + 1) i j (by omega) hj, show k + 1 + i = k + (i + 1) by omega]

theorem length_rows {α : Type} {n : Nat} {f : Nat → List α} (hf : ∀ i, (f i).length = n) : ∀ (m k : Nat),
    ((List.range' k m).flatMap f).length = m * n := by
  intro m
  induction m with
  | zero => simp
  | succ m ih =>
    intro k
    rw [List.range'_succ, List.flatMap_cons, List.length_append, hf, ih, Nat.succ_mul, Nat.add_comm]

end Problems
end RustSat
