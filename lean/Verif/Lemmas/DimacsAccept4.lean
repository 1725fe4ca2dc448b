import Verif.Lemmas.DimacsAccept3
import Verif.Lemmas.ProofText
/-
Whole DIMACS files (C94).
-/
namespace RustSat.DimacsSpec
open Text P Dimacs
open Clustering (seqP_inv map_inv alt_inv opt_inv cutErr_inv sat_inv takeWhile_all)

/-! ### CNF -/

theorem cnfHeader_map : ∀ L : List Text, cnfHeader (L.map stripNl) = (cnfHeader L).map fun d => (d.1, d.2.map stripNl)
  | [] => rfl
  | l :: L => by
    rw [List.map_cons, cnfHeader, cnfHeader, trim_stripNl, cnfHeader_map L]
    by_cases h1 : (trim l).isEmpty = true
    · rw [if_pos h1, if_pos h1]
    · rw [if_neg h1, if_neg h1]
      by_cases h2 : startsWith ['c'] (trim l) = true
      · rw [if_pos h2, if_pos h2]
      · rw [if_neg h2, if_neg h2]
        cases parse cnfPLine (trim l) <;> rfl

theorem ignored_cases {l : Text} (hl : '\n' ∉ l) (β : Type) (a b : β) :
    (if (trim l).isEmpty = true then a else if startsWith ['c'] (trim l) = true then a else b) = if (trim l).isEmpty = true ∨ startsWith ['c'] (trim l) = true then a else b := by
  by_cases h1 : (trim l).isEmpty = true
  · rw [if_pos h1, if_pos (Or.inl h1)]
  · rw [if_neg h1]
    by_cases h2 : startsWith ['c'] (trim l) = true
    · rw [if_pos h2, if_pos (Or.inr h2)]
    · rw [if_neg h2, if_neg (by rintro (h | h); exacts [h1 h, h2 h])]

theorem cnfHeader_exact : ∀ {L : List Text} {nv nc : Nat} {ls : List Text}, (∀ l ∈ L, '\n' ∉ l) →
    (cnfHeader L = some ((nv, nc), ls) ↔ ∃ pre l, L = pre ++ l :: ls ∧ (∀ p ∈ pre, IgnoredLine p) ∧ Around (CnfHeaderRead nv nc) l)
  | [], nv, nc, ls, _ => by
    constructor
    · intro h; cases h
    · rintro ⟨pre, l, e, _⟩; cases pre <;> cases e
  | l :: L, nv, nc, ls, hL => by
    have hl := hL l List.mem_cons_self
    have ih := cnfHeader_exact (L := L) (nv := nv) (nc := nc) (ls := ls) fun x hx => hL x (List.mem_cons_of_mem _ hx)
    have hx := cnf_header_exact nv nc
    rw [cnfHeader, ignored_cases hl]
    by_cases hi : IgnoredLine l
    · rw [if_pos ((ignored_iff hl).2 hi), ih]
      constructor
      · rintro ⟨pre, l', rfl, h1, h2⟩
        refine ⟨l :: pre, l', rfl, ?_, h2⟩
        intro p hp
        rcases List.mem_cons.1 hp with rfl | hp
        · exact hi
        · exact h1 p hp
      · rintro ⟨pre, l', e, h1, h2⟩
        cases pre with
        | nil => cases e; exact absurd hi (hx.notIgnored h2)
        | cons q pre => cases e; exact ⟨pre, l', rfl, fun p hp => h1 p (List.mem_cons_of_mem _ hp), h2⟩
    · rw [if_neg (fun h => hi ((ignored_iff hl).1 h))]
      constructor
      · intro h
        cases hp : parse cnfPLine (trim l) with
        | none => rw [hp] at h; cases h
        | some d =>
          rw [hp] at h
          cases h
          exact ⟨[], l, rfl, (fun p hp => nomatch hp), (hx.line hl hi).1 hp⟩
      · rintro ⟨pre, l', e, h1, h2⟩
        cases pre with
        | nil => cases e; rw [(hx.line hl hi).2 h2]
        | cons q pre => cases e; exact absurd (h1 _ List.mem_cons_self) hi

theorem readCnf_exact {t : Text} {nv nc : Nat} {ds : List CnfData} :
    readCnf t = some (nv, nc, ds) ↔ ∃ body, CnfFile nv nc ds body t := by
  constructor
  · intro h
    obtain ⟨L, hL⟩ := linesOf_exists t
    have hr := hL.read
    unfold readCnf at h
    cases h1 : cnfHeader (readLines t) with
    | none => rw [h1] at h; cases h
    | some d =>
      obtain ⟨⟨nv', nc'⟩, ls⟩ := d
      rw [h1] at h
      simp only at h
      cases h2 : body cnfLine ls with
      | none => rw [h2] at h; cases h
      | some ds' =>
        rw [h2] at h
        cases h
        have h3 := cnfHeader_map (readLines t)
        rw [hr, h1] at h3
        obtain ⟨pre, l, e, g1, g2⟩ := (cnfHeader_exact hL.newline).1 h3
        have h4 : body cnfLine (ls.map stripNl) = some ds := by rw [body_map, h2]
        refine ⟨ls.map stripNl, pre, l, by rw [← e]; exact hL, g1, g2, (body_exact cnf_exact ?_).1 h4⟩
        intro x hx
        exact hL.newline x (by rw [e]; simp; right; right; simpa using hx)
  · rintro ⟨bd, pre, l, hL, g1, g2, g3⟩
    have hr := hL.read
    have h1 := (cnfHeader_exact hL.newline).2 ⟨pre, l, rfl, g1, g2⟩
    rw [← hr, cnfHeader_map] at h1
    have h2 := (body_exact cnf_exact (fun x hx => hL.newline x (by simp [hx]))).2 g3
    unfold readCnf
    cases h3 : cnfHeader (readLines t) with
    | none => rw [h3] at h1; cases h1
    | some d =>
      obtain ⟨⟨nv', nc'⟩, ls⟩ := d
      rw [h3] at h1
      injection h1 with h1
      injection h1 with e1 e2
      cases e1
      simp only
      rw [show body cnfLine ls = some ds by rw [← body_map, e2, h2]]

/-! ### WCNF -/

/-- The lines in a header result without line feeds. -/
def stripHeader : WcnfHeader → WcnfHeader
  | .pre22 nv nc top ls => .pre22 nv nc top (ls.map stripNl)
  | .post22 d ls => .post22 d (ls.map stripNl)
  | .empty => .empty

theorem wcnfHeader_map : ∀ L : List Text, wcnfHeader (L.map stripNl) = (wcnfHeader L).map stripHeader
  | [] => rfl
  | l :: L => by
    rw [List.map_cons, wcnfHeader, wcnfHeader, trim_stripNl, wcnfHeader_map L]
    by_cases h1 : (trim l).isEmpty = true
    · rw [if_pos h1, if_pos h1]
    · rw [if_neg h1, if_neg h1]
      by_cases h2 : startsWith ['c'] (trim l) = true
      · rw [if_pos h2, if_pos h2]
      · rw [if_neg h2, if_neg h2]
        cases parse (alt (map WcnfData.hard hardClause) (map (fun p => WcnfData.soft p.1 p.2) softClause)) (trim l) with
        | some d => rfl
        | none => cases parse wcnfPLine (trim l) <;> rfl

theorem wcnf_data_exact (d : WcnfData) : ExactHeader (WcnfDataRead d) (fun t => parse dataP t = some d) := by
  constructor
  · intro t h
    obtain ⟨h1, h2, _⟩ := data_tight h
    refine ⟨h1, h2, ?_⟩
    cases h with
    | hard hs h => rfl
    | @soft b w c n s t hw hm hs h =>
      obtain ⟨x, r, e, hx⟩ := nat_head (s := s ++ t) hw
      have hne := ne_of_head hx (d := 'c') (by decide) (by decide)
      rw [e]
      simp [startsWith, List.isPrefixOf, Ne.symm hne]
  · intro t ht hne hn
    exact ⟨fun h => data_inv hn ht.last (parse_inv h), fun h => parse_ok (data_ok h)⟩

theorem data_not_header {t : Text} {nv nc top : Nat} (h : WcnfHeaderRead nv nc top t) : parse dataP t = none := by
  cases h with
  | mk =>
    rfl

/-- What the header function finds in the lines. -/
inductive HeaderOf : List Text → WcnfHeader → Prop where
  | empty {L} : (∀ p ∈ L, IgnoredLine p) → HeaderOf L .empty
  | post {pre l ls d} : (∀ p ∈ pre, IgnoredLine p) → Around (WcnfDataRead d) l → HeaderOf (pre ++ l :: ls) (.post22 d ls)
  | pre {pre l ls nv nc top} : (∀ p ∈ pre, IgnoredLine p) → Around (WcnfHeaderRead nv nc top) l →
      HeaderOf (pre ++ l :: ls) (.pre22 nv nc top ls)

theorem HeaderOf.skip {l : Text} {L : List Text} {h : WcnfHeader} (hi : IgnoredLine l) (hh : HeaderOf L h) : HeaderOf (l :: L) h := by
  have key : ∀ pre : List Text, (∀ p ∈ pre, IgnoredLine p) → ∀ p ∈ l :: pre, IgnoredLine p := by
    intro pre hp p hm
    rcases List.mem_cons.1 hm with rfl | hm
    · exact hi
    · exact hp p hm
  cases hh with
  | empty h => exact .empty (key _ h)
  | post h1 h2 => exact HeaderOf.post (key _ h1) h2
  | pre h1 h2 => exact HeaderOf.pre (key _ h1) h2

theorem HeaderOf.unskip {l : Text} {L : List Text} {h : WcnfHeader} (hi : IgnoredLine l) (hh : HeaderOf (l :: L) h) : HeaderOf L h := by
  generalize e : l :: L = M at hh
  cases hh with
  | empty h => subst e; exact .empty fun p hp => h p (List.mem_cons_of_mem _ hp)
  | @post pre l' ls d h1 h2 =>
    cases pre with
    | nil => cases e; exact absurd hi ((wcnf_data_exact d).notIgnored h2)
    | cons q pre => cases e; exact .post (fun p hp => h1 p (List.mem_cons_of_mem _ hp)) h2
  | @pre pre l' ls nv nc top h1 h2 =>
    cases pre with
    | nil => cases e; exact absurd hi ((wcnf_header_exact nv nc top).notIgnored h2)
    | cons q pre => cases e; exact .pre (fun p hp => h1 p (List.mem_cons_of_mem _ hp)) h2

theorem wcnfHeader_exact : ∀ {L : List Text} {h : WcnfHeader}, (∀ l ∈ L, '\n' ∉ l) → (wcnfHeader L = some h ↔ HeaderOf L h)
  | [], h, _ => by
    constructor
    · intro e; cases e; exact .empty fun p hp => nomatch hp
    · intro hh
      generalize e : ([] : List Text) = M at hh
      cases hh with
      | empty h => subst e; rfl
      | @post pre l' ls d h1 h2 => cases pre <;> cases e
      | @pre pre l' ls nv nc top h1 h2 => cases pre <;> cases e
  | l :: L, h, hL => by
    have hl := hL l List.mem_cons_self
    have ih := wcnfHeader_exact (L := L) (h := h) fun x hx => hL x (List.mem_cons_of_mem _ hx)
    rw [wcnfHeader, ignored_cases hl]
    by_cases hi : IgnoredLine l
    · rw [if_pos ((ignored_iff hl).2 hi), ih]
      exact ⟨fun hh => hh.skip hi, fun hh => hh.unskip hi⟩
    · rw [if_neg (fun h => hi ((ignored_iff hl).1 h))]
      show (match parse dataP (trim l) with | some d => some (WcnfHeader.post22 d L) | none => _) = some h ↔ _
      constructor
      · intro hh
        cases hd : parse dataP (trim l) with
        | some d =>
          rw [hd] at hh
          cases hh
          exact HeaderOf.post (pre := []) (fun p hp => nomatch hp) (((wcnf_data_exact d).line hl hi).1 hd)
        | none =>
          rw [hd] at hh
          simp only at hh
          cases hp : parse wcnfPLine (trim l) with
          | none => rw [hp] at hh; cases hh
          | some d =>
            obtain ⟨nv, nc, top⟩ := d
            rw [hp] at hh
            cases hh
            exact HeaderOf.pre (pre := []) (fun p hp => nomatch hp) (((wcnf_header_exact nv nc top).line hl hi).1 hp)
      · intro hh
        generalize e : l :: L = M at hh
        cases hh with
        | empty h => subst e; exact absurd (h l List.mem_cons_self) hi
        | @post pre l' ls d h1 h2 =>
          cases pre with
          | nil => cases e; rw [((wcnf_data_exact d).line hl hi).2 h2]
          | cons q pre => cases e; exact absurd (h1 _ List.mem_cons_self) hi
        | @pre pre l' ls nv nc top h1 h2 =>
          cases pre with
          | nil =>
            cases e
            have hn : parse dataP (trim l) = none := by
              obtain ⟨w, x, w', e, hw, hw', hR⟩ := id h2
              rw [e, trim_pad ((wcnf_header_exact nv nc top).tight x hR).1 hw hw']
              exact data_not_header hR
            rw [hn]
            simp only [((wcnf_header_exact nv nc top).line hl hi).2 h2]
          | cons q pre => cases e; exact absurd (h1 _ List.mem_cons_self) hi

theorem stripHeader_empty {h : WcnfHeader} (e : stripHeader h = .empty) : h = .empty := by
  cases h <;> first | rfl | cases e

theorem stripHeader_post {h : WcnfHeader} {d : WcnfData} {ls : List Text} (e : stripHeader h = .post22 d ls) :
    ∃ ks, h = .post22 d ks ∧ ks.map stripNl = ls := by
  cases h with
  | post22 d' ks => cases e; exact ⟨ks, rfl, rfl⟩
  | pre22 _ _ _ _ => cases e
  | empty => cases e

theorem stripHeader_pre {h : WcnfHeader} {nv nc top : Nat} {ls : List Text} (e : stripHeader h = .pre22 nv nc top ls) :
    ∃ ks, h = .pre22 nv nc top ks ∧ ks.map stripNl = ls := by
  cases h with
  | pre22 _ _ _ ks => cases e; exact ⟨ks, rfl, rfl⟩
  | post22 _ _ => cases e
  | empty => cases e

theorem readWcnf_exact {t : Text} {nv : Option Nat} {ds : List WcnfData} : readWcnf t = some (nv, ds) ↔ WcnfFile nv ds t := by
  constructor
  · intro h
    obtain ⟨L, hL⟩ := linesOf_exists t
    have hr := hL.read
    unfold readWcnf at h
    cases h1 : wcnfHeader (readLines t) with
    | none => rw [h1] at h; cases h
    | some x =>
      rw [h1] at h
      have h3 := wcnfHeader_map (readLines t)
      rw [hr, h1] at h3
      have hh := (wcnfHeader_exact hL.newline).1 h3
      cases x with
      | empty =>
        cases h
        cases hh with
        | empty g => exact .empty hL g
      | post22 d ls =>
        simp only at h
        cases h2 : body wcnfPost22Line ls with
        | none => rw [h2] at h; cases h
        | some ds' =>
          rw [h2] at h
          cases h
          rw [← body_map] at h2
          generalize e : stripHeader (.post22 d ls) = y at hh
          cases hh with
          | empty g => cases e
          | pre g1 g2 => cases e
          | post g1 g2 =>
            cases e
            exact .new hL g1 g2 ((body_exact wcnf_exact fun x hx => hL.newline x (List.mem_append_right _ (List.mem_cons_of_mem _ hx))).1 h2)
      | pre22 n nc top ls =>
        simp only at h
        cases h2 : body (wcnfPre22Line top) ls with
        | none => rw [h2] at h; cases h
        | some ds' =>
          rw [h2] at h
          cases h
          rw [← body_map] at h2
          generalize e : stripHeader (.pre22 n nc top ls) = y at hh
          cases hh with
          | empty g => cases e
          | post g1 g2 => cases e
          | pre g1 g2 =>
            cases e
            exact .old hL g1 g2 ((body_exact (oldWcnf_exact top) fun x hx => hL.newline x (List.mem_append_right _ (List.mem_cons_of_mem _ hx))).1 h2)
  · intro h
    have key : ∀ {L : List Text} {x : WcnfHeader}, LinesOf L t → HeaderOf L x → ∃ y, wcnfHeader (readLines t) = some y ∧ stripHeader y = x := by
      intro L x hL hx
      have h1 := (wcnfHeader_exact hL.newline).2 hx
      rw [← hL.read, wcnfHeader_map] at h1
      cases h3 : wcnfHeader (readLines t) with
      | none => rw [h3] at h1; cases h1
      | some y => rw [h3] at h1; exact ⟨y, rfl, Option.some.inj h1⟩
    unfold readWcnf
    cases h with
    | empty hL g =>
      obtain ⟨y, h1, h2⟩ := key hL (.empty g)
      rw [h1, stripHeader_empty h2]
    | new hL g1 g2 g3 =>
      obtain ⟨y, h1, h2⟩ := key hL (.post g1 g2)
      obtain ⟨ks, rfl, rfl⟩ := stripHeader_post h2
      rw [h1]
      have h4 := (body_exact wcnf_exact fun x hx => hL.newline x (List.mem_append_right _ (List.mem_cons_of_mem _ hx))).2 g3
      rw [body_map] at h4
      simp only [h4]
    | @old _ _ _ _ _ _ top _ hL g1 g2 g3 =>
      obtain ⟨y, h1, h2⟩ := key hL (.pre g1 g2)
      obtain ⟨ks, rfl, rfl⟩ := stripHeader_pre h2
      rw [h1]
      have h4 := (body_exact (oldWcnf_exact top) fun x hx => hL.newline x (List.mem_append_right _ (List.mem_cons_of_mem _ hx))).2 g3
      rw [body_map] at h4
      simp only [h4]

/-! ### MCNF -/

theorem readMcnf_exact {t : Text} {ds : List McnfData} : readMcnf t = some ds ↔ McnfFile ds t := by
  unfold readMcnf McnfFile
  constructor
  · intro h
    obtain ⟨L, hL⟩ := linesOf_exists t
    refine ⟨L, hL, (body_exact mcnf_exact hL.newline).1 ?_⟩
    rw [← hL.read, body_map, h]
  · rintro ⟨L, hL, h⟩
    have := (body_exact mcnf_exact hL.newline).2 h
    rwa [← hL.read, body_map] at this

/-! ### The standard -/

theorem wordInt_digits {c : Char} {r : Text} (h : ∀ x ∈ c :: r, isDigit x = true) : wordInt (c :: r) = some (readNat (c :: r)) := by
  have hc := digit_ne_sign (h c List.mem_cons_self)
  have hall : (c :: r).all isDigit = true := List.all_eq_true.2 h
  unfold wordInt
  split
  · rename_i e; cases e; exact absurd rfl hc.2
  · rename_i e; cases e; exact absurd rfl hc.1
  · rw [if_pos ⟨by simp, hall⟩]; rfl

theorem IntText.word {n : Int} {t : Text} (h : IntText n t) : wordInt t = some n := by
  cases h with
  | plain hd =>
    obtain ⟨c, r, e, _⟩ := hd.head
    have := hd.all
    rw [e] at this ⊢
    exact wordInt_digits this
  | plus hd =>
    obtain ⟨c, r, e, _⟩ := hd.head
    unfold wordInt
    exact if_pos ⟨by rw [e]; simp, List.all_eq_true.2 hd.all⟩
  | minus hd =>
    obtain ⟨c, r, e, _⟩ := hd.head
    unfold wordInt
    exact if_pos ⟨by rw [e]; simp, List.all_eq_true.2 hd.all⟩

theorem wordInts_append : ∀ {a b : List Text} {x y : List Int}, wordInts a = some x → wordInts b = some y → wordInts (a ++ b) = some (x ++ y)
  | [], b, x, y, ha, hb => by cases ha; exact hb
  | w :: a, b, x, y, ha, hb => by
    rw [List.cons_append, wordInts]
    rw [wordInts] at ha
    cases h1 : wordInt w with
    | none => rw [h1] at ha; cases ha
    | some n =>
      rw [h1] at ha
      cases h2 : wordInts a with
      | none => rw [h2] at ha; cases ha
      | some ns =>
        rw [h2] at ha
        cases ha
        rw [wordInts_append h2 hb]
        rfl

theorem ClauseLine.words {b : Bool} {c : Clause} {t : Text} (h : ClauseLine b c t) :
    wordInts (splitWs t) = some (c.map number ++ if b then [0] else []) ∧ ((splitWs t).getLast? = some ['0'] → b = true) ∧ splitWs t ≠ [] := by
  induction h with
  | zero => exact ⟨rfl, fun _ => rfl, by decide⟩
  | @last l t _ ht =>
    have e : splitWs t = [t] := by
      have := OutputSpec.splitWs_word (t := []) ht.noSpace.1 ht.noSpace.2 (Or.inl rfl)
      rwa [List.append_nil] at this
    rw [e]
    refine ⟨by simp [wordInts, ht.word], ?_, by simp⟩
    intro h
    exact absurd (by simpa using h) ht.ne_zero
  | @cons b l c t s u _ ht hs hu ih =>
    have e : splitWs (t ++ (s ++ u)) = t :: splitWs u := by
      cases s with
      | nil => exact absurd rfl hs.1
      | cons x s =>
        rw [List.cons_append, OutputSpec.splitWs_word ht.noSpace.1 ht.noSpace.2 (Or.inr ⟨x, s ++ u, rfl, isWs_of_isSpace (hs.space x List.mem_cons_self)⟩)]
        rw [← List.cons_append, OutputSpec.splitWs_white (w := x :: s) (fun c hc => isWs_of_isSpace (hs.space c hc))]
    rw [e]
    refine ⟨?_, ?_, by simp⟩
    · rw [wordInts, ht.word, ih.1]; rfl
    · intro h
      apply ih.2.1
      rw [List.getLast?_cons_of_ne_nil ih.2.2] at h
      exact h

theorem number_ne_zero (l : Lit) : number l ≠ 0 := by
  unfold number
  split <;> omega

theorem splitZeros_clause (c : Clause) (ns : List Int) : splitZeros (c.map number ++ ([0] ++ ns)) = (splitZeros ns).map (c.map number :: ·) := by
  induction c with
  | nil => simp [splitZeros]
  | cons l c ih =>
    rw [List.map_cons, List.cons_append, splitZeros, if_neg (number_ne_zero l), ih]
    cases splitZeros ns <;> rfl

theorem splitWs_around {w t w' : Text} (hw : White w) (hw' : White w') : splitWs (w ++ t ++ w') = splitWs t := by
  rw [List.append_assoc, OutputSpec.splitWs_white hw]
  cases w' with
  | nil => rw [List.append_nil]
  | cons c w' =>
    rw [ProofText.splitWs_sep (hw' c List.mem_cons_self)]
    have := OutputSpec.splitWs_white (w := w') (fun x hx => hw' x (List.mem_cons_of_mem _ hx)) []
    rw [List.append_nil] at this
    rw [this]
    simp [splitWs]

theorem commentLine_around {w t w' : Text} {x : Char} (hw : White w) (hx : isWs x = false) : commentLine (w ++ (x :: t) ++ w') = (x == 'c') := by
  unfold commentLine
  rw [List.append_assoc, trimStart_append hw]
  rw [show trimStart (x :: t ++ w') = x :: (t ++ w') by simp [trimStart, List.dropWhile, hx]]
  simp only [startsWith, List.isPrefixOf, Bool.and_true]
  by_cases h : x = 'c' <;> simp [h, eq_comm]

theorem standard_body {bd : List Text} {ds : List CnfData} (h : FileLines CnfLineRead bd ds)
    (hz : ∀ l ∈ bd, White l ∨ commentLine l = true ∨ EndsInZero l) :
    ∃ ns, wordInts ((bd.filter fun l => !commentLine l).flatMap splitWs) = some ns ∧ splitZeros ns = some ((clauses ds).map (·.map number)) := by
  induction h with
  | nil => exact ⟨[], rfl, rfl⟩
  | @blank w ls as hw _ _ ih =>
    obtain ⟨ns, h1, h2⟩ := ih fun l hl => hz l (List.mem_cons_of_mem _ hl)
    have hs : splitWs w = [] := by
      have := OutputSpec.splitWs_white hw []
      rwa [List.append_nil] at this
    refine ⟨ns, ?_, h2⟩
    rw [List.filter_cons]
    split
    · rw [List.flatMap_cons, hs]; exact h1
    · exact h1
  | @data a t w w' ls as hR hw hw' _ _ ih =>
    obtain ⟨ns, h1, h2⟩ := ih fun l hl => hz l (List.mem_cons_of_mem _ hl)
    cases hR with
    | @clause b c t hc =>
      obtain ⟨x, r, rfl⟩ : ∃ x r, t = x :: r := by
        cases t with
        | nil => exact absurd rfl hc.ne_nil
        | cons x r => exact ⟨x, r, rfl⟩
      have hcm : commentLine (w ++ (x :: r) ++ w') = false := by
        rw [commentLine_around hw (hc.head x r rfl).1]
        rcases (hc.head x r rfl).2 with hx | rfl | rfl
        · simpa using ne_of_isDigit hx (d := 'c') (by decide)
        · rfl
        · rfl
      have hb : b = true := by
        rcases hz _ List.mem_cons_self with g | g | g
        · exfalso
          have := g x (by simp)
          rw [(hc.head x r rfl).1] at this
          cases this
        · rw [hcm] at g; cases g
        · unfold EndsInZero at g
          rw [splitWs_around hw hw'] at g
          exact hc.words.2.1 g
      subst hb
      refine ⟨c.map number ++ ([0] ++ ns), ?_, ?_⟩
      · rw [List.filter_cons, if_pos (by rw [hcm]; rfl), List.flatMap_cons, splitWs_around hw hw', ← List.append_assoc]
        exact wordInts_append hc.words.1 h1
      · rw [splitZeros_clause, h2]; rfl
    | @comment t hc =>
      refine ⟨ns, ?_, h2⟩
      rw [List.filter_cons, if_neg (by rw [commentLine_around hw (by decide)]; decide)]
      exact h1

end RustSat.DimacsSpec
