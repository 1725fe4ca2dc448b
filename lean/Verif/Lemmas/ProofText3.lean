import Verif.Lemmas.ProofText2
/-
What the calls of the proof logging library write.
-/
namespace RustSat
namespace ProofText
open Text (showNat showInt splitWs isWs isDigit)

/-! ### Arguments -/

theorem twoRefs_ok {a b : CId} (ha : a.Valid) (hb : b.Valid) : twoRefs [a.text, b.text] = some (a, b) := by
  simp only [twoRefs, readRef_text ha, readRef_text hb]

theorem conRef_ok {c : Con} (h : c.Valid) : conRef c.words = some (c, none) := by
  have := readCon_ok h []
  rw [List.append_nil] at this
  simp only [conRef, this]

theorem conRef_some {c : Con} {i : CId} (h : c.Valid) (hi : i.Valid) : conRef (c.words ++ [i.text]) = some (c, some i) := by
  simp only [conRef, readCon_ok h, readRef_text hi]

theorem conSubs_ok {c : Con} {subs : List Sub} (h : c.Valid) (hs : ∀ s ∈ subs, s.Valid) :
    conSubs (c.words ++ subsWords subs) = some (c, subs, false) := by
  have := readSubs_ok (rest := []) (by simp) hs
  rw [List.append_nil] at this
  simp only [conSubs, readCon_ok h, this]
  rfl

theorem conSubs_begin {c : Con} {subs : List Sub} (h : c.Valid) (hs : ∀ s ∈ subs, s.Valid) :
    conSubs (c.words ++ (subsWords subs ++ [[';'], "begin".toList])) = some (c, subs, true) := by
  have := readSubs_ok (rest := [[';'], "begin".toList]) (fun t ts e => by injection e with e _; subst e; decide) hs
  simp only [conSubs, readCon_ok h, this]
  rw [if_neg (by simp), if_pos True.intro]

theorem delIds_ok {ids : List CId} (h : IdsValid ids) : delIds (ids.map CId.text ++ [[';']]) = some (ids, false) := by
  have := takeRefs_ok (rest := [[';']]) (fun t ts e => by injection e with e _; subst e; decide) h
  unfold delIds
  rw [this]
  simp only
  rw [if_pos True.intro]

theorem delIds_begin {ids : List CId} (h : IdsValid ids) :
    delIds (ids.map CId.text ++ [[';'], [';'], "begin".toList]) = some (ids, true) := by
  have := takeRefs_ok (rest := [[';'], [';'], "begin".toList]) (fun t ts e => by injection e with e _; subst e; decide) h
  unfold delIds
  rw [this]
  simp only
  rw [if_neg (by simp), if_pos True.intro]

theorem Ws.append_literal {a b : Text} {x y : List Text} (ha : Ws a x) (hb : Ws b y) {c : Text} (e : c = ' ' :: b) : Ws (a ++ c) (x ++ y) :=
  e ▸ ha.sp hb

theorem optSol_some {s : List Ax} (h : ∀ a ∈ s, a.Valid) : optSol ([':'] :: s.map Ax.text) = some (some s) := by
  simp only [optSol, readAll_lits h, if_pos]

theorem CId.ne_colon (i : CId) : i.text ≠ [':'] := CId.text_ne _ (by decide)

theorem showInt_ne_colon (z : Int) : showInt z ≠ [':'] := by
  intro h
  have := readInt_showInt z
  rw [h] at this
  have h2 : readInt [':'] = none := by decide
  rw [h2] at this
  cases this

theorem conclusion_line {c : Conclusion} (h : c.Valid) :
    ∃ r, c.Says r ∧ LineText ("conclusion ".toList ++ c.text) (.conclusion r) := by
  have kw : IsKw "conclusion".toList .conclusion := by decide
  have mk : ∀ {l : Text} {ws : List Text} {r : Concl}, Ws l ws → readConcl ws = some r →
      LineText ("conclusion ".toList ++ l) (.conclusion r) := fun hl hr =>
    LineText.mk kw hl (by show (readConcl _).map Item.conclusion = _; rw [hr]; rfl)
  cases c with
  | none => exact ⟨.none, rfl, mk (ws := ["NONE".toList]) ⟨by decide, by decide⟩ (by decide)⟩
  | sat sol =>
    refine ⟨.sat sol, rfl, ?_⟩
    cases sol with
    | none => exact mk (ws := ["SAT".toList]) ⟨by decide, by decide⟩ (by decide)
    | some s =>
      have w : Ws ("SAT : ".toList ++ litsText s) (["SAT".toList, [':']] ++ s.map Ax.text) :=
        Ws.sp (a := "SAT :".toList) ⟨by decide, by decide⟩ (.lits (h s rfl))
      refine mk w ?_
      show (match optSol ([':'] :: s.map Ax.text) with | some s => some (Concl.sat s) | none => none) = _
      rw [optSol_some (h s rfl)]
  | unsat id =>
    refine ⟨.unsat id, rfl, ?_⟩
    cases id with
    | none => exact mk (ws := ["UNSAT".toList]) ⟨by decide, by decide⟩ (by decide)
    | some i =>
      have w : Ws ("UNSAT : ".toList ++ i.text) (["UNSAT".toList, [':']] ++ [i.text]) :=
        Ws.sp (a := "UNSAT :".toList) ⟨by decide, by decide⟩ (.id i)
      refine mk w ?_
      show (match readRef i.text with | some r => some (Concl.unsat (some r)) | none => none) = _
      rw [readRef_text (h i rfl)]
  | bounds start stop id sol =>
    refine ⟨.bounds start id (stop - 1) sol, ⟨start, stop - 1, rfl, fun z => by omega⟩, ?_⟩
    obtain ⟨hi, hs⟩ := h
    -- the upper bound
    have up : ∃ u, Ws (showInt (stop - 1) ++ colonSol sol) (showInt (stop - 1) :: u) ∧
        ∀ lo id, readUpper lo id (showInt (stop - 1) :: u) = some (.bounds lo id (stop - 1) sol) := by
      cases sol with
      | none => exact ⟨[], by simpa [colonSol] using Ws.int (stop - 1), fun lo id => by simp only [readUpper, readInt_showInt, optSol]⟩
      | some s =>
        refine ⟨[':'] :: s.map Ax.text, Ws.sp (.int _) (b := [':'] ++ ' ' :: litsText s) (y := [':'] :: s.map Ax.text)
          (Ws.sp (x := [[':']]) ⟨by decide, by decide⟩ (.lits (hs s rfl))), fun lo id => ?_⟩
        simp only [readUpper, readInt_showInt, optSol_some (hs s rfl)]
    obtain ⟨u, hu, ru⟩ := up
    cases id with
    | none =>
      have w : Ws (Conclusion.bounds start stop none sol).text ("BOUNDS".toList :: showInt start :: showInt (stop - 1) :: u) := by
        have := Ws.sp (a := "BOUNDS".toList) (x := ["BOUNDS".toList]) ⟨by decide, by decide⟩ ((Ws.int start).sp hu)
        have e : (Conclusion.bounds start stop none sol).text = "BOUNDS".toList ++ ' ' :: (showInt start ++ ' ' ::
            (showInt (stop - 1) ++ colonSol sol)) := by
          unfold Conclusion.text
          simp only [colonId, List.append_assoc, List.nil_append]
          rfl
        rw [e]; exact this
      refine mk w ?_
      show (match readInt (showInt start) with
        | none => none
        | some lo => if showInt (stop - 1) = [':'] then _ else readUpper lo none (showInt (stop - 1) :: u)) = _
      simp only [readInt_showInt, if_neg (showInt_ne_colon _), ru]
    | some i =>
      have w : Ws (Conclusion.bounds start stop (some i) sol).text
          ("BOUNDS".toList :: showInt start :: [':'] :: i.text :: showInt (stop - 1) :: u) := by
        have := Ws.sp (a := "BOUNDS".toList) (x := ["BOUNDS".toList]) ⟨by decide, by decide⟩
          ((Ws.int start).sp (Ws.sp (a := [':']) (x := [[':']]) ⟨by decide, by decide⟩ ((Ws.id i).sp hu)))
        have e : (Conclusion.bounds start stop (some i) sol).text = "BOUNDS".toList ++ ' ' :: (showInt start ++ ' ' :: ([':'] ++ ' ' :: (i.text ++ ' ' ::
            (showInt (stop - 1) ++ colonSol sol)))) := by
          unfold Conclusion.text
          simp only [colonId, List.append_assoc]
          rfl
        rw [e]; exact this
      refine mk w ?_
      show (match readInt (showInt start) with
        | none => none
        | some lo => match readRef i.text with | some r => readUpper lo (some r) (showInt (stop - 1) :: u) | none => none) = _
      simp only [readInt_showInt, readRef_text (hi i rfl), ru]

theorem output_line (g : Output) : LineText ("output ".toList ++ g.text) (.output g) := by
  cases g with
  | none => exact ⟨by decide, by decide, by decide⟩
  | derivable t => cases t <;> exact ⟨by decide, by decide, by decide⟩
  | equisatisfiable t => cases t <;> exact ⟨by decide, by decide, by decide⟩
  | equioptimal t => cases t <;> exact ⟨by decide, by decide, by decide⟩

/-! ### Lines without keywords -/

theorem lookup_none {α : Type} {c : Char} {r : Text} : ∀ {l : List (Text × α)}, (∀ p ∈ l, p.1.head? ≠ some c) → l.lookup (c :: r) = none
  | [], _ => rfl
  | (k, a) :: l, h => by
    have h1 := h (k, a) (by simp)
    rw [List.lookup_cons]
    have : ((c :: r) == k) = false := by
      apply beq_eq_false_iff_ne.2
      rintro rfl
      exact h1 rfl
    rw [this]
    exact lookup_none fun p hp => h p (by simp [hp])

theorem keyword_none {c : Char} {r : Text} (h : isDigit c = true ∨ c = '-' ∨ c = '>') : keyword (c :: r) = none := by
  have hd : keywords.all (fun p => match p.1.head? with | some d => !isDigit d && d != '-' && d != '>' | none => true) = true := by decide
  refine lookup_none fun p hp e => ?_
  have := List.all_eq_true.1 hd p hp
  simp only [e, Bool.and_eq_true, Bool.not_eq_true', bne_iff_ne] at this
  rcases h with h | h | h
  · rw [h] at this; exact absurd this.1.1 (by decide)
  · exact this.1.2 h
  · exact this.2 h

theorem showInt_cons (z : Int) : ∃ c r, showInt z = c :: r ∧ (isDigit c = true ∨ c = '-') := by
  unfold showInt
  by_cases h : z < 0
  · rw [if_pos h]; exact ⟨'-', _, rfl, .inr rfl⟩
  · rw [if_neg h]
    obtain ⟨c, r, e, hc⟩ := showNat_cons z.natAbs
    exact ⟨c, r, e, .inl hc⟩

theorem con_line {c : Con} (h : c.Valid) : LineText (c.text ++ " ;".toList) (.con c) := by
  have hw := Ws.conSemi h
  have hr := readCon_ok h []
  rw [List.append_nil] at hr
  have : ∃ x r w, c.words = (x :: r) :: w ∧ (isDigit x = true ∨ x = '-' ∨ x = '>') := by
    unfold Con.words
    cases hs : c.sum with
    | nil => exact ⟨'>', ['='], _, rfl, .inr (.inr rfl)⟩
    | cons t ts =>
      obtain ⟨x, r, e, hx⟩ := showInt_cons t.1
      refine ⟨x, r, _, by rw [← e]; rfl, ?_⟩
      rcases hx with hx | hx
      · exact .inl hx
      · exact .inr (.inl hx)
  obtain ⟨x, r, w, e, hx⟩ := this
  refine ⟨hw.2, ?_, ?_⟩
  · rw [hw.1, e]
    simp only [speaks, bne_iff_ne]
    rintro rfl
    revert hx; decide
  · rw [hw.1]
    rw [e] at hr ⊢
    simp only [readLine, keyword_none hx, hr]

/-! ### Orders -/

theorem Order.order_name {v : Text} (h : isName v = true) : isName (leftVar v) = true ∧ isName (rightVar v) = true ∧ isName (freshVar v) = true := by
  have : v.all isNameChar = true := by
    obtain ⟨c, d, r, rfl, h1, h2⟩ := isName_iff.1 h
    rw [List.all_eq_true]
    intro x hx
    rcases List.mem_cons.1 hx with rfl | hx
    · exact isNameChar_of_isLetter h1
    · exact h2 x hx
  have key : ∀ c, isLetter c = true → isName (c :: '_' :: v) = true := fun c hc => by
    simp only [isName, hc, this]; decide
  exact ⟨key 'u' (by decide), key 'v' (by decide), key 'w' (by decide)⟩

theorem defLines_reads : ∀ {cs : List Con}, (∀ c ∈ cs, c.Valid) → Reads (Order.defLines cs) (cs.map Item.con)
  | [], _ => .nil
  | c :: cs, h => by
    have := Reads.cons ((con_line (h c (by simp))).indent 4) (defLines_reads (cs := cs) fun x hx => h x (by simp [hx]))
    have e : Order.defLines (c :: cs) = spaces 4 ++ (c.text ++ " ;".toList) ++ '\n' :: Order.defLines cs := by
      simp only [Order.defLines, List.append_assoc]
      rfl
    rw [e]; exact this

theorem names_line {k : Text} {kw : Kw} {i : List Text → Item} (hk : IsKw k kw)
    (hr : ∀ ts, readArgs kw ts = (readAll readName ts).map i) {vs : List Text} {f : Text → Text} (h : ∀ v ∈ vs, isName (f v) = true) :
    LineText (k ++ ' ' :: joinSp (vs.map f)) (i (vs.map f)) := by
  refine .mk hk (.namesMap h) ?_
  rw [hr, readAll_names]
  · rfl
  · intro v hv
    obtain ⟨x, hx, rfl⟩ := List.mem_map.1 hv
    exact h x hx

theorem order_reads (short : Bool) {o : Order} (h : o.Valid) : ∃ t, o.text short = some t ∧ Reads (t ++ ['\n']) o.items := by
  obtain ⟨h1, h2, h3, h4, h5⟩ := h
  obtain ⟨tr, e1, r1⟩ := goalLines_reads short 6 h4
  have refl : ∃ t, Order.reflText short o.reflProof = some t ∧ Reads t (reflItems o.reflProof) := by
    cases hr : o.reflProof with
    | none => exact ⟨[], rfl, .nil⟩
    | some gs =>
      obtain ⟨t, e, r⟩ := goalLines_reads short 6 (h5 gs hr)
      refine ⟨_, by simp only [Order.reflText, e]; rfl, ?_⟩
      have a : Reads "  reflexivity\n    proof\n".toList [.reflexivity, .proof] :=
        (Reads.line (t := "  reflexivity".toList) ⟨by decide, by decide, by decide⟩).append
          (Reads.line (t := "    proof".toList) ⟨by decide, by decide, by decide⟩)
      have b : Reads "    qed\n  end\n".toList [.qed none, .endBlock] :=
        (Reads.line (t := "    qed".toList) ⟨by decide, by decide, by decide⟩).append
          (Reads.line (t := "  end".toList) ⟨by decide, by decide, by decide⟩)
      exact (a.append r).append b
  obtain ⟨rf, e2, r2⟩ := refl
  refine ⟨_, by rw [Order.text, e1]; simp only [e2]; rfl, ?_⟩
  have l1 : LineText ("def_order".toList ++ ' ' :: o.name) (.defOrder o.name) := .mk (kw := .defOrder) (by decide) (.word h1) rfl
  have l2 : LineText (spaces 2 ++ "vars".toList) .vars := .indent 2 ⟨by decide, by decide, by decide⟩
  have l3 := (names_line (k := "left".toList) (kw := .left) (i := Item.left) (by decide) (fun _ => rfl)
    fun v hv => (Order.order_name (h2 v hv)).1).indent 4
  have l4 := (names_line (k := "right".toList) (kw := .right) (i := Item.right) (by decide) (fun _ => rfl)
    fun v hv => (Order.order_name (h2 v hv)).2.1).indent 4
  have l5 : LineText (spaces 4 ++ "aux".toList) (.aux []) := .indent 4 ⟨by decide, by decide, by decide⟩
  have l6 : LineText (spaces 2 ++ "end".toList) .endBlock := .indent 2 ⟨by decide, by decide, by decide⟩
  have l7 : LineText (spaces 2 ++ "def".toList) .definition := .indent 2 ⟨by decide, by decide, by decide⟩
  have l8 : LineText (spaces 2 ++ "transitivity".toList) .transitivity := .indent 2 ⟨by decide, by decide, by decide⟩
  have l9 : LineText (spaces 4 ++ "vars".toList) .vars := .indent 4 ⟨by decide, by decide, by decide⟩
  have l10 := (names_line (k := "fresh_right".toList) (kw := .freshRight) (i := Item.freshRight) (by decide) (fun _ => rfl)
    fun v hv => (Order.order_name (h2 v hv)).2.2).indent 6
  have l11 : LineText (spaces 4 ++ "end".toList) .endBlock := .indent 4 ⟨by decide, by decide, by decide⟩
  have l12 : LineText (spaces 4 ++ "proof".toList) .proof := .indent 4 ⟨by decide, by decide, by decide⟩
  have l13 : LineText (spaces 4 ++ "qed".toList) (.qed none) := .indent 4 ⟨by decide, by decide, by decide⟩
  have l14 : LineText "end".toList .endBlock := ⟨by decide, by decide, by decide⟩
  have R := (Reads.cons l1 (.cons l2 (.cons l3 (.cons l4 (.cons l5 (.cons l6 (.cons l7 ((defLines_reads h3).append
    (.cons l6 (.cons l8 (.cons l9 (.cons l10 (.cons l11 (.cons l12 (r1.append (.cons l13 (.cons l6 (r2.append
    (.line l14)))))))))))))))))))
  have e3 : ∀ {x y : Text} {is js : List Item}, Reads x is → x = y → is = js → Reads y js := by
    rintro x y is js h rfl rfl; exact h
  refine e3 R ?_ ?_
  · simp only [List.append_assoc, List.cons_append]
    rfl
  · unfold Order.items
    simp only [List.append_assoc, List.cons_append, List.nil_append]
    rfl

end ProofText
end RustSat
