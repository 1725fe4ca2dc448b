import Verif.Lemmas.ProofText
/-
Reading the lines that the proof logging library writes.
-/
namespace RustSat
namespace ProofText
open Text (showNat showInt splitWs isWs isDigit)
open OutputSpec (splitWs_ws splitWs_one splitWs_more splitWs_word)

instance (t : Text) : Decidable (NL t) := inferInstanceAs (Decidable ('\n' ∉ t))

/-! ### Texts and their words -/

/-- The words of a text without line breaks. -/
def Ws (t : Text) (ws : List Text) : Prop := splitWs t = ws ∧ NL t

theorem Ws.nil : Ws [] [] := ⟨rfl, NL.nil⟩
theorem Ws.word {t : Text} (h : Word t) : Ws t [t] := ⟨splitWs_of_word h, h.nl⟩
theorem Ws.sp {a b : Text} {x y : List Text} (ha : Ws a x) (hb : Ws b y) : Ws (a ++ ' ' :: b) (x ++ y) :=
  ⟨by rw [splitWs_sp, ha.1, hb.1], ha.2.append (.cons (by decide) hb.2)⟩
theorem Ws.join {α : Type} {f : α → Text} {g : α → List Text} {xs : List α} (h : ∀ x ∈ xs, Ws (f x) (g x)) :
    Ws (joinSp (xs.map f)) (xs.flatMap g) := by
  refine ⟨?_, NL.joinSp fun t ht => ?_⟩
  · rw [splitWs_joinSp]
    induction xs with
    | nil => rfl
    | cons x xs ih =>
      rw [List.map_cons, List.flatMap_cons, List.flatMap_cons, (h x (by simp)).1, ih fun y hy => h y (by simp [hy])]
  · obtain ⟨x, hx, rfl⟩ := List.mem_map.1 ht
    exact (h x hx).2
theorem flatMap_single {α β : Type} (f : α → β) : ∀ xs : List α, xs.flatMap (fun x => [f x]) = xs.map f
  | [] => rfl
  | x :: xs => by rw [List.flatMap_cons, flatMap_single f xs]; rfl
theorem Ws.joinWords {α : Type} {f : α → Text} {xs : List α} (h : ∀ x ∈ xs, Word (f x)) : Ws (joinSp (xs.map f)) (xs.map f) := by
  have := Ws.join (f := f) (g := fun x => [f x]) fun x hx => Ws.word (h x hx)
  rwa [flatMap_single] at this

theorem Ws.num (n : Nat) : Ws (showNat n) [showNat n] := .word (word_showNat n)
theorem Ws.int (n : Int) : Ws (showInt n) [showInt n] := .word (word_showInt n)
theorem Ws.id (i : CId) : Ws i.text [i.text] := .word i.word
theorem Ws.ids (ids : List CId) : Ws (idsText ids) (ids.map CId.text) := .joinWords fun i _ => i.word
theorem Ws.lits {ls : List Ax} (h : ∀ a ∈ ls, a.Valid) : Ws (litsText ls) (ls.map Ax.text) := .joinWords fun a ha => Ax.word (h a ha)
theorem Ws.names {vs : List Text} (h : ∀ v ∈ vs, isName v = true) : Ws (joinSp vs) vs := by
  have := Ws.joinWords (f := fun v : Text => v) (xs := vs) fun v hv => word_name (h v hv)
  simpa using this
theorem Ws.namesMap {vs : List Text} {f : Text → Text} (h : ∀ v ∈ vs, isName (f v) = true) : Ws (joinSp (vs.map f)) (vs.map f) :=
  .joinWords fun v hv => word_name (h v hv)

theorem Ws.sum {sum : List (Int × Ax)} (h : ∀ t ∈ sum, t.2.Valid) : Ws (sumText sum) (sumWords sum) :=
  .join fun t ht => Ws.sp (.int t.1) (.word (Ax.word (h t ht)))

theorem Ws.con {c : Con} (h : c.Valid) : Ws c.text (sumWords c.sum ++ [['>', '='], showInt c.rhs]) := by
  have e : c.text = sumText c.sum ++ ' ' :: (['>', '='] ++ ' ' :: showInt c.rhs) := by
    unfold Con.text
    rw [List.append_assoc]; rfl
  rw [e]
  exact (Ws.sum h).sp (Ws.sp (x := [['>', '=']]) ⟨by decide, by decide⟩ (.int _))

theorem Ws.conSemi {c : Con} (h : c.Valid) : Ws (c.text ++ " ;".toList) c.words := by
  have := (Ws.con h).sp (b := [';']) (y := [[';']]) ⟨by decide, by decide⟩
  rw [List.append_assoc] at this
  exact this

theorem Ws.conSemi_more {c : Con} (h : c.Valid) {x : Text} {w : List Text} (hx : Ws x w) :
    Ws (c.text ++ " ; ".toList ++ x) (c.words ++ w) := by
  have := (Ws.con h).sp (Ws.sp (a := [';']) (x := [[';']]) ⟨by decide, by decide⟩ hx)
  have e : c.text ++ " ; ".toList ++ x = c.text ++ ' ' :: ([';'] ++ ' ' :: x) := by rw [List.append_assoc]; rfl
  rw [e]
  unfold Con.words
  simpa [List.append_assoc] using this

theorem Ws.op {o : Op} (h : o.Valid) : Ws o.text o.words := by
  cases o with
  | id i => exact .id i
  | ax a => exact .word (Ax.word h)
  | add => exact ⟨by decide, by decide⟩
  | sat => exact ⟨by decide, by decide⟩
  | weak => exact ⟨by decide, by decide⟩
  | mult k => exact Ws.sp (.num k) (b := ['*']) ⟨by decide, by decide⟩
  | div k => exact Ws.sp (.num k) (b := ['d']) ⟨by decide, by decide⟩

theorem Ws.ops {ops : List Op} (h : ∀ o ∈ ops, o.Valid) : Ws (joinSp (ops.map Op.text)) (ops.flatMap Op.words) :=
  .join fun o ho => .op (h o ho)

theorem Ws.sub {s : Sub} (h : s.Valid) : Ws s.text [s.var, ['-', '>'], s.sub.text] := by
  have e : s.text = s.var ++ ' ' :: (['-', '>'] ++ ' ' :: s.sub.text) := by
    unfold Sub.text
    rw [List.append_assoc]; rfl
  rw [e]
  exact (Ws.word (word_name h.1)).sp (Ws.sp (x := [['-', '>']]) ⟨by decide, by decide⟩ (.word (With.word h.2)))

theorem Ws.subs {subs : List Sub} (h : ∀ s ∈ subs, s.Valid) : Ws (subsText subs) (subsWords subs) := .join fun s hs => .sub (h s hs)

/-! ### Lines -/

/-- The text of a line that says an item. -/
def LineText (t : Text) (i : Item) : Prop := NL t ∧ speaks (splitWs t) = true ∧ readLine (splitWs t) = some i

/-- A first word of lines. -/
def IsKw (k : Text) (kw : Kw) : Prop := keyword k = some kw ∧ splitWs k = [k] ∧ speaks [k] = true ∧ '\n' ∉ k

instance (k : Text) (kw : Kw) : Decidable (IsKw k kw) := inferInstanceAs (Decidable (_ ∧ _ ∧ _ ∧ _))

theorem speaks_cons {k : Text} {ws : List Text} : speaks (k :: ws) = speaks [k] := by
  cases k <;> rfl

theorem LineText.mk {k : Text} {kw : Kw} {l : Text} {ws : List Text} {i : Item} (hk : IsKw k kw) (hl : Ws l ws)
    (h : readArgs kw ws = some i) : LineText (k ++ ' ' :: l) i := by
  have e : splitWs (k ++ ' ' :: l) = k :: ws := by rw [splitWs_sp, hk.2.1, hl.1]; rfl
  refine ⟨NL.append hk.2.2.2 (.cons (by decide) hl.2), ?_, ?_⟩
  · rw [e, speaks_cons]; exact hk.2.2.1
  · rw [e, readLine, hk.1]; exact h

theorem LineText.indent {t : Text} {i : Item} (n : Nat) (h : LineText t i) : LineText (spaces n ++ t) i :=
  ⟨(NL.spaces n).append h.1, by rw [splitWs_spaces]; exact h.2.1, by rw [splitWs_spaces]; exact h.2.2⟩

/-- A text that consists of lines, and what they say. -/
def Reads (t : Text) (is : List Item) : Prop :=
  ∃ ls : List Text, t = ls.flatMap (· ++ ['\n']) ∧ (∀ l ∈ ls, NL l) ∧ readItems (ls.map splitWs) = some is

theorem readItems_append : ∀ {a b : List (List Text)} {x y : List Item}, readItems a = some x → readItems b = some y →
    readItems (a ++ b) = some (x ++ y)
  | [], b, x, y, ha, hb => by
    injection ha with ha
    subst ha; exact hb
  | w :: a, b, x, y, ha, hb => by
    rw [readItems] at ha
    rw [List.cons_append, readItems]
    by_cases hs : speaks w = true
    · rw [if_pos hs] at ha ⊢
      cases h1 : readLine w with
      | none => rw [h1] at ha; cases ha
      | some i =>
        cases h2 : readItems a with
        | none => rw [h1, h2] at ha; cases ha
        | some z =>
          rw [h1, h2] at ha
          injection ha with ha
          subst ha
          rw [readItems_append h2 hb]; rfl
    · rw [if_neg hs] at ha ⊢
      exact readItems_append ha hb

theorem Reads.nil : Reads [] [] := ⟨[], rfl, by simp, rfl⟩
theorem Reads.append {a b : Text} {x y : List Item} : Reads a x → Reads b y → Reads (a ++ b) (x ++ y) := by
  rintro ⟨la, rfl, h1, h2⟩ ⟨lb, rfl, h3, h4⟩
  refine ⟨la ++ lb, by simp, fun l hl => ?_, ?_⟩
  · rcases List.mem_append.1 hl with hl | hl
    · exact h1 l hl
    · exact h3 l hl
  · rw [List.map_append]; exact readItems_append h2 h4
theorem Reads.line {t : Text} {i : Item} (h : LineText t i) : Reads (t ++ ['\n']) [i] := by
  refine ⟨[t], by simp, fun l hl => ?_, ?_⟩
  · rw [List.mem_singleton.1 hl]; exact h.1
  · show readItems [splitWs t] = _
    rw [readItems, if_pos h.2.1, h.2.2]; rfl
theorem Reads.silent {t : Text} (h : NL t) (hs : speaks (splitWs t) = false) : Reads (t ++ ['\n']) [] := by
  refine ⟨[t], by simp, fun l hl => ?_, ?_⟩
  · rw [List.mem_singleton.1 hl]; exact h
  · show readItems [splitWs t] = _
    rw [readItems, if_neg (by rw [hs]; decide)]; rfl
theorem Reads.cons {t u : Text} {i : Item} {is : List Item} (h : LineText t i) (hu : Reads u is) : Reads (t ++ '\n' :: u) (i :: is) := by
  have := (Reads.line h).append hu
  simpa using this

theorem Reads.read {t : Text} {is : List Item} : Reads t is → readProof t = some is := by
  rintro ⟨ls, rfl, h1, h2⟩
  unfold readProof
  rw [← h2]
  congr 1
  clear h2
  induction ls with
  | nil => rfl
  | cons l ls ih =>
    have hl := h1 l (by simp)
    have e : ((l :: ls).flatMap (· ++ ['\n'])) = l ++ '\n' :: ls.flatMap (· ++ ['\n']) := by simp
    rw [e, Text.readLines_line hl, List.map_cons, List.map_cons, ih fun x hx => h1 x (by simp [hx]), splitWs_sep (by decide)]
    simp [splitWs]

/-! ### The lines of the library -/

theorem rupWord_kw (short : Bool) : IsKw (rupWord short) .rup := by cases short <;> decide
theorem polWord_kw (short : Bool) : IsKw (polWord short) .pol := by cases short <;> decide

theorem readArgs_rup {c : Con} {hints : List CId} (hc : c.Valid) (hh : ∀ i ∈ hints, i.Valid) :
    readArgs .rup (c.words ++ hints.map CId.text) = some (.rup c hints) := by
  unfold readArgs
  simp only [readCon_ok hc, readAll_refs hh]; rfl

theorem op_words_ne {o : Op} : o.words ≠ [] := by cases o <;> simp [Op.words]

theorem readArgs_pol {ops : List Op} (h : OpsValid ops) : readArgs .pol (ops.flatMap Op.words) = some (.pol ops) := by
  unfold readArgs
  simp only
  rw [if_neg, readOps_ok h.2]
  · rfl
  · obtain ⟨h1, -⟩ := h
    cases ops with
    | nil => exact absurd rfl h1
    | cons o ops =>
      rw [List.flatMap_cons]
      intro h
      exact op_words_ne (List.append_eq_nil_iff.1 h).1

theorem opsText_eq {ops : List Op} (h : OpsValid ops) : opsText ops = some (joinSp (ops.map Op.text)) := if_neg h.1

theorem rup_line (short : Bool) {c : Con} {hints : List CId} (hc : c.Valid) (hh : ∀ i ∈ hints, i.Valid) :
    LineText (rupWord short ++ ' ' :: (c.text ++ " ; ".toList ++ idsText hints)) (.rup c hints) :=
  .mk (rupWord_kw short) (.conSemi_more hc (.ids hints)) (readArgs_rup hc hh)

theorem pol_line (short : Bool) {ops : List Op} (h : OpsValid ops) :
    LineText (polWord short ++ ' ' :: joinSp (ops.map Op.text)) (.pol ops) :=
  .mk (polWord_kw short) (.ops h.2) (readArgs_pol h)

theorem Deriv.line (short : Bool) {d : Deriv} (h : d.Valid) : ∃ t, d.text short = some t ∧ LineText t d.item := by
  cases d with
  | rup c hints => exact ⟨_, rfl, rup_line short h.1 h.2⟩
  | ops l => exact ⟨_, by simp only [Deriv.text, opsText_eq h], pol_line short h⟩

theorem derivLines_reads (short : Bool) (n : Nat) : ∀ {ds : List Deriv}, (∀ d ∈ ds, d.Valid) →
    ∃ t, derivLines short n ds = some t ∧ Reads t (ds.map Deriv.item)
  | [], _ => ⟨[], rfl, .nil⟩
  | d :: ds, h => by
    obtain ⟨t, e1, h1⟩ := Deriv.line short (h d (by simp))
    obtain ⟨u, e2, h2⟩ := derivLines_reads short n (ds := ds) fun x hx => h x (by simp [hx])
    refine ⟨spaces n ++ "  ".toList ++ t ++ '\n' :: u, by rw [derivLines, e1, e2], ?_⟩
    have := Reads.cons ((h1.indent 2).indent n) h2
    rw [← List.append_assoc] at this
    exact this

theorem goal_reads (short : Bool) (n : Nat) {g : Goal} (h : g.Valid) : ∃ t, g.text short n = some t ∧ Reads (t ++ ['\n']) g.items := by
  obtain ⟨t, e, hr⟩ := derivLines_reads short n h.2
  refine ⟨_, by rw [Goal.text, e], ?_⟩
  have l1 : LineText ("proofgoal".toList ++ ' ' :: g.id.text) (.goal g.id) :=
    .mk (kw := .proofgoal) (by decide) (.word g.id.word) (by show (readGoalId g.id.text).map Item.goal = _; rw [readGoalId_text h.1]; rfl)
  have l2 : LineText "qed -1".toList (.qed (some (.rel 1))) := ⟨by decide, by decide, by decide⟩
  have := Reads.cons (l1.indent n) (hr.append (.line (l2.indent n)))
  have e2 : spaces n ++ "proofgoal ".toList ++ g.id.text ++ '\n' :: (t ++ (spaces n ++ "qed -1".toList)) ++ ['\n'] =
      spaces n ++ ("proofgoal".toList ++ ' ' :: g.id.text) ++ '\n' :: (t ++ (spaces n ++ "qed -1".toList ++ ['\n'])) := by
    simp only [List.append_assoc, List.cons_append]
    rfl
  rw [e2]
  exact this

theorem goalLines_reads (short : Bool) (n : Nat) : ∀ {gs : List Goal}, (∀ g ∈ gs, g.Valid) →
    ∃ t, goalLines short n gs = some t ∧ Reads t (gs.flatMap Goal.items)
  | [], _ => ⟨[], rfl, .nil⟩
  | g :: gs, h => by
    obtain ⟨t, e1, h1⟩ := goal_reads short n (h g (by simp))
    obtain ⟨u, e2, h2⟩ := goalLines_reads short n (gs := gs) fun x hx => h x (by simp [hx])
    refine ⟨t ++ '\n' :: u, by rw [goalLines, e1, e2], ?_⟩
    have := h1.append h2
    simpa using this

/-- The number of ids that an element takes. -/
def Element.count : Element → Nat
  | .deriv _ => 1
  | .goal g => 1 + g.derivations.length
/-- The number of ids that elements take. -/
def countIds (es : List Element) : Nat := (es.map Element.count).sum

/-- Only the text and the ids change. -/
structure Same (p q : Proof) : Prop where
  pv : q.nextPv = p.nextPv
  opt : q.optimization = p.optimization
  default : q.default = p.default

theorem Same.refl (p : Proof) : Same p p := ⟨rfl, rfl, rfl⟩
theorem Same.trans {p q r : Proof} (a : Same p q) (b : Same q r) : Same p r :=
  ⟨b.pv.trans a.pv, b.opt.trans a.opt, b.default.trans a.default⟩

theorem writeElements_spec (short : Bool) : ∀ {es : List Element} (p : Proof), (∀ e ∈ es, e.Valid) →
    ∃ q t, p.writeElements short es = some q ∧ q.out = p.out ++ t ∧ Reads t (es.flatMap Element.items) ∧
      q.nextId = p.nextId + countIds es ∧ Same p q
  | [], p, _ => ⟨p, [], rfl, by simp, .nil, by simp [countIds], .refl p⟩
  | .deriv d :: es, p, h => by
    obtain ⟨t, e1, h1⟩ := Deriv.line short (h (.deriv d) (by simp))
    obtain ⟨q, u, e2, h2, h3, h4, h5⟩ := writeElements_spec short (es := es) { p.writeln ("  ".toList ++ t) with nextId := p.nextId + 1 }
      fun x hx => h x (by simp [hx])
    refine ⟨q, ("  ".toList ++ t) ++ '\n' :: u, by rw [Proof.writeElements, e1]; exact e2, ?_, ?_, ?_, ⟨h5.pv, h5.opt, h5.default⟩⟩
    · rw [h2]; simp [Proof.writeln]
    · exact Reads.cons (h1.indent 2) h3
    · rw [h4]; simp [countIds, Element.count]; omega
  | .goal g :: es, p, h => by
    obtain ⟨t, e1, h1⟩ := goal_reads short 2 (h (.goal g) (by simp))
    obtain ⟨q, u, e2, h2, h3, h4, h5⟩ := writeElements_spec short (es := es)
      { p.writeln t with nextId := p.nextId + (1 + g.derivations.length) } fun x hx => h x (by simp [hx])
    refine ⟨q, (t ++ ['\n']) ++ u, by rw [Proof.writeElements, e1]; exact e2, ?_, ?_, ?_, ⟨h5.pv, h5.opt, h5.default⟩⟩
    · rw [h2]; simp [Proof.writeln]
    · exact h1.append h3
    · rw [h4]; simp [countIds, Element.count]; omega

/-- The text after the line that begins a sub-proof, if there is one, and the ids taken by it. -/
theorem writeSubproof_spec (short : Bool) {es : List Element} (p : Proof) (h : ∀ e ∈ es, e.Valid) :
    ∃ q t, p.writeSubproof short es = some q ∧
      q.out = p.out ++ ((if es = [] then [] else " ; begin".toList) ++ '\n' :: t) ∧ Reads t (subproofItems es) ∧
      q.nextId = p.nextId + (if es = [] then 0 else 1 + countIds es) ∧ Same p q := by
  by_cases he : es = []
  · subst he
    exact ⟨p.writeln [], [], by simp [Proof.writeSubproof], by simp [Proof.writeln], .nil, rfl, ⟨rfl, rfl, rfl⟩⟩
  · obtain ⟨q, t, e, h1, h2, h3, h4⟩ := writeElements_spec short ({ p with nextId := p.nextId + 1 }.writeln " ; begin".toList) h
    refine ⟨q.writeln "end".toList, t ++ "end\n".toList, by rw [Proof.writeSubproof, if_neg he, e], ?_, ?_, ?_, ⟨h4.pv, h4.opt, h4.default⟩⟩
    · show q.out ++ _ = _
      rw [h1, if_neg he]
      simp only [Proof.writeln, List.append_assoc, List.cons_append, List.nil_append]
      rfl
    · rw [subproofItems, if_neg he]
      exact h2.append (Reads.line (t := "end".toList) ⟨by decide, by decide, by decide⟩)
    · rw [if_neg he]
      show q.nextId = _
      rw [h3]
      show p.nextId + 1 + _ = _
      omega

end ProofText
end RustSat
