import Verif.Lemmas.Opb2

/-
The texts produced by the OPB writers.
-/

namespace RustSat.OpbSpec
open Text P Opb DimacsSpec Dimacs

/-! ### No line breaks within statements -/

theorem noBreak_nil : NoBreak [] := ⟨(fun h => nomatch h), (fun h => nomatch h)⟩

theorem noBreak_cons {c : Char} {t : Text} (hc : c ≠ '\n' ∧ c ≠ '\r') (h : NoBreak t) : NoBreak (c :: t) :=
  ⟨fun hm => by cases hm with | head => exact hc.1 rfl | tail _ hm => exact h.1 hm,
   fun hm => by cases hm with | head => exact hc.2 rfl | tail _ hm => exact h.2 hm⟩

theorem noBreak_spaces {s : Text} (h : Spaces s) : NoBreak s :=
  ⟨fun hm => by have := h _ hm; revert this; decide, fun hm => by have := h _ hm; revert this; decide⟩

theorem NumText.noBreak {i : Int} {n : Text} (h : NumText i n) : NoBreak n := by
  cases h with
  | plain => exact noBreak_showInt i
  | plus _ => exact noBreak_cons (by decide) (noBreak_showInt i)

theorem LitText.noBreak {first : Nat} {l : Lit} {t : Text} (h : LitText first l t) : NoBreak t := by
  cases h with
  | pos _ _ => exact noBreak_cons (by decide) (noBreak_showNat _)
  | tilde _ _ => exact noBreak_cons (by decide) (noBreak_cons (by decide) (noBreak_showNat _))
  | minus _ _ => exact noBreak_cons (by decide) (noBreak_cons (by decide) (noBreak_showNat _))

theorem SumText.noBreak {first : Nat} {ps : List (Lit × Int)} {t : Text} (h : SumText first ps t) : NoBreak t := by
  induction h with
  | nil => exact noBreak_nil
  | one _ h2 h3 h4 => exact h2.noBreak.append ((noBreak_spaces h3.2).append h4.noBreak)
  | cons _ h2 h3 h4 h5 _ ih =>
    exact h2.noBreak.append ((noBreak_spaces h3.2).append (h4.noBreak.append ((noBreak_spaces h5.2).append ih)))

theorem opText_noBreak (op : Op) : NoBreak (opText op) := by
  cases op <;> exact ⟨by decide, by decide⟩

theorem StmtText.noBreak {first : Nat} {st : Stmt} {t : Text} (h : StmtText first st t) : NoBreak t := by
  cases h with
  | @constr sum op b t s s' n h1 h2 h3 h4 h5 h6 =>
    exact h1.noBreak.append ((noBreak_spaces h2).append ((opText_noBreak op).append ((noBreak_spaces h4).append h6.noBreak)))
  | min h1 h2 => exact NoBreak.append ⟨by decide, by decide⟩ ((noBreak_spaces h1).append h2.noBreak)
  | max h1 h2 => exact NoBreak.append ⟨by decide, by decide⟩ ((noBreak_spaces h1).append h2.noBreak)

/-! ### Pieces of files -/

/-- A text that can be put in front of any file and adds the given statements to it. -/
def Adds (first : Nat) (sts : List Stmt) (T : Text) : Prop :=
  ∀ sts' T', FileText first sts' T' → FileText first (sts ++ sts') (T ++ T')

theorem adds_nil (first : Nat) : Adds first [] [] := fun _ _ h => h

theorem Adds.append {first : Nat} {s1 s2 : List Stmt} {t1 t2 : Text} (h1 : Adds first s1 t1) (h2 : Adds first s2 t2) :
    Adds first (s1 ++ s2) (t1 ++ t2) := fun sts' T' h => by
  rw [List.append_assoc, List.append_assoc]
  exact h1 _ _ (h2 _ _ h)

theorem Adds.file {first : Nat} {sts : List Stmt} {t : Text} (h : Adds first sts t) : FileText first sts t := by
  simpa using h [] [] .nil

theorem adds_line {first : Nat} {sts : List Stmt} {t : Text} (h : LineText first sts t) (hn : '\n' ∉ t) :
    Adds first sts (t ++ ['\n']) := fun sts' T' hf => by
  have := FileText.line (w := []) (fun c hc => nomatch hc) (by simpa using hn) h hf
  simpa using this

theorem adds_stmt {first : Nat} {st : Stmt} {t : Text} (h : StmtText first st t) : Adds first [st] (t ++ [';', '\n']) := by
  have hl : LineText first [st] (t ++ ([] ++ ';' :: [])) := .semi h spaces_nil spaces_nil
  have := adds_line hl (by
    have := h.noBreak.1
    simp only [List.nil_append, List.mem_append, not_or]
    exact ⟨this, by decide⟩)
  simpa using this

theorem adds_comment {first : Nat} {t : Text} (h : NoBreak t) : Adds first [] ('*' :: t ++ ['\n']) :=
  adds_line (.comment h.1 h.2) (noBreak_cons (by decide) h).1

theorem adds_unlines {first : Nat} {ls : List Text} (h : ∀ l ∈ ls, ∃ t, l = '*' :: t ∧ NoBreak t) :
    Adds first [] (unlines ls) := by
  induction ls with
  | nil => exact adds_nil first
  | cons l ls ih =>
    obtain ⟨t, e, ht⟩ := h l List.mem_cons_self
    subst e
    have := (adds_comment (first := first) ht).append (ih fun l hl => h l (List.mem_cons_of_mem _ hl))
    simpa [unlines] using this

theorem adds_writeAll {first : Nat} {α : Type} {f : α → Option Text} (g : α → List Stmt) {xs : List α}
    (h : ∀ x ∈ xs, ∃ T, f x = some T ∧ Adds first (g x) T) :
    ∃ T, writeAll f xs = some T ∧ Adds first (xs.flatMap g) T := by
  induction xs with
  | nil => exact ⟨[], rfl, adds_nil first⟩
  | cons x xs ih =>
    obtain ⟨T, e, hT⟩ := h x List.mem_cons_self
    obtain ⟨T', e', hT'⟩ := ih fun x hx => h x (List.mem_cons_of_mem _ hx)
    refine ⟨T ++ T', ?_, ?_⟩
    · simp only [writeAll, e, e']
    · rw [List.flatMap_cons]
      exact hT.append hT'

/-! ### Sums -/

/-- The term written for a weighted literal. -/
def sgn (opts : Options) (p : Lit × Nat) : Lit × Int :=
  if opts.noNegatedLits then (Lit.pos p.1.var, if p.1.isPos then (p.2 : Int) else -(p.2 : Int)) else (p.1, (p.2 : Int))

/-- What the right-hand side is decreased by. -/
def shift (opts : Options) (ls : List (Lit × Nat)) : Nat := if opts.noNegatedLits then negOffset ls else 0

theorem pos_of_isNeg {l : Lit} : (l.isNeg = false → Lit.pos l.var = l) ∧ (l.isNeg = true → Lit.negOf l.var = l) := by
  have hm := Lit.mk'_var_isNeg l
  constructor <;> intro h <;> rw [h] at hm <;> exact hm

theorem holds_pos (a : Asg) (l : Lit) : (Lit.pos l.var).holds a = if l.isPos then l.holds a else !l.holds a := by
  have hp := Lit.isPos_eq l
  cases h : l.isNeg with
  | false =>
    rw [hp, h, pos_of_isNeg.1 h]
    rfl
  | true =>
    have h2 : (Lit.pos l.var).neg = l := by
      have := pos_of_isNeg.2 h
      rw [← this]
      simp
    have h3 : (Lit.pos l.var).neg.holds a = l.holds a := by rw [h2]
    rw [Lit.holds_neg] at h3
    rw [hp, h, ← h3]
    simp

theorem isum_sgn (opts : Options) (a : Asg) (ls : List (Lit × Nat)) :
    isum a (ls.map (sgn opts)) = wsum a ls - (shift opts ls : Nat) := by
  unfold sgn shift
  cases opts.noNegatedLits with
  | false =>
    induction ls with
    | nil => rfl
    | cons p ls ih =>
      obtain ⟨l, w⟩ := p
      simp only [List.map_cons, isum, wsum] at ih ⊢
      simp at ih ⊢
      split <;> omega
  | true =>
    induction ls with
    | nil => rfl
    | cons p ls ih =>
      obtain ⟨l, w⟩ := p
      simp only [if_true, List.map_cons, isum, wsum, negOffset, holds_pos] at ih ⊢
      rw [ih]
      cases l.isPos <;> cases l.holds a <;> simp <;> omega

theorem negOffset_le (ls : List (Lit × Nat)) : negOffset ls ≤ wtotal ls := by
  induction ls with
  | nil => simp [negOffset]
  | cons p ls ih => obtain ⟨l, w⟩ := p; simp only [negOffset, wtotal]; split <;> omega

theorem shift_le (opts : Options) (ls : List (Lit × Nat)) : shift opts ls ≤ wtotal ls := by
  have := negOffset_le ls
  unfold shift; split <;> omega

theorem le_wtotal {ls : List (Lit × Nat)} {p : Lit × Nat} (h : p ∈ ls) : p.2 ≤ wtotal ls := by
  induction ls with
  | nil => cases h
  | cons q ls ih =>
    obtain ⟨l, w⟩ := q
    rw [wtotal]
    cases h with
    | head => exact Nat.le_add_right _ _
    | tail _ h => have := ih h; omega

theorem sgn_text {opts : Options} {p : Lit × Nat} (hv : VarFits opts.firstVarIdx p.1) :
    ∃ t, LitText opts.firstVarIdx (sgn opts p).1 t ∧
      (t = 'x' :: showNat (p.1.var + opts.firstVarIdx) ∧ (opts.noNegatedLits = true ∨ p.1.isPos = true) ∨
        t = '~' :: 'x' :: showNat (p.1.var + opts.firstVarIdx) ∧ opts.noNegatedLits = false ∧ p.1.isPos = false) := by
  unfold sgn
  cases h : opts.noNegatedLits with
  | true => exact ⟨_, .pos hv.1 hv.2, Or.inl ⟨rfl, Or.inl rfl⟩⟩
  | false =>
    have hp := Lit.isPos_eq p.1
    cases h' : p.1.isNeg with
    | false =>
      rw [h'] at hp
      have ht := LitText.pos hv.1 hv.2
      rw [pos_of_isNeg.1 h'] at ht
      exact ⟨_, ht, Or.inl ⟨rfl, Or.inr hp⟩⟩
    | true =>
      rw [h'] at hp
      have ht := LitText.tilde hv.1 hv.2
      rw [pos_of_isNeg.2 h'] at ht
      exact ⟨_, ht, Or.inr ⟨rfl, rfl, hp⟩⟩

theorem sgn_range {opts : Options} {p : Lit × Nat} (hw : p.2 ≤ 9223372036854775807) : InRange (sgn opts p).2 := by
  unfold sgn InRange
  cases opts.noNegatedLits <;> cases p.1.isPos <;> simp <;> omega

theorem varText_ok {opts : Options} {l : Lit} (hv : VarFits opts.firstVarIdx l) :
    varText opts l.var = some ('x' :: showNat (l.var + opts.firstVarIdx)) := by
  have h2 : l.var + opts.firstVarIdx ≤ u32Max := hv.2
  rw [varText, if_pos h2]

/-- The writer of one term, in both modes. -/
def writeTerm (opts : Options) (p : Lit × Nat) : Option Text :=
  if opts.noNegatedLits then termNoNeg opts p else termNeg opts p

theorem writeTerm_ok {opts : Options} {p : Lit × Nat} (hv : VarFits opts.firstVarIdx p.1) (hw : p.2 ≤ 9223372036854775807) :
    ∃ t, LitText opts.firstVarIdx (sgn opts p).1 t ∧ writeTerm opts p = some (showInt (sgn opts p).2 ++ (' ' :: (t ++ [' ']))) := by
  obtain ⟨t, ht, hc⟩ := sgn_text (opts := opts) hv
  refine ⟨t, ht, ?_⟩
  have hw' : p.2 ≤ isizeMax := hw
  unfold writeTerm sgn termNoNeg termNeg posTerm negTerm
  rw [varText_ok hv]
  rcases hc with ⟨e, h | h⟩ | ⟨e, h, h'⟩
  · subst e
    simp only [h, if_true]
    cases p.1.isPos <;> simp [hw']
  · subst e
    simp only [h, if_true]
    cases opts.noNegatedLits <;> simp
  · subst e
    simp [h, h']

theorem writeTerms_ok {opts : Options} {ls : List (Lit × Nat)}
    (h : ∀ p ∈ ls, VarFits opts.firstVarIdx p.1 ∧ p.2 ≤ 9223372036854775807) :
    ∃ u s, writeAll (writeTerm opts) ls = some (u ++ s) ∧ SumText opts.firstVarIdx (ls.map (sgn opts)) u ∧ Spaces s ∧
      (ls.map (sgn opts) = [] → s = []) := by
  induction ls with
  | nil => exact ⟨[], [], rfl, .nil, spaces_nil, fun _ => rfl⟩
  | cons p ls ih =>
    obtain ⟨u, s, e, hu, hs, he⟩ := ih fun q hq => h q (List.mem_cons_of_mem _ hq)
    obtain ⟨hv, hw⟩ := h p List.mem_cons_self
    obtain ⟨t, ht, et⟩ := writeTerm_ok hv hw
    have hsp : Spaces [' '] := by decide
    have hse : Sep [' '] := ⟨by decide, hsp⟩
    have hr := sgn_range (opts := opts) hw
    cases ls with
    | nil =>
      refine ⟨showInt (sgn opts p).2 ++ ([' '] ++ t), [' '], ?_, .one hr .plain hse ht, hsp, fun h => nomatch h⟩
      simp only [writeAll, et]
      simp
    | cons q ls =>
      refine ⟨showInt (sgn opts p).2 ++ ([' '] ++ (t ++ ([' '] ++ u))), s, ?_, ?_, hs, fun h => nomatch h⟩
      · rw [writeAll]
        simp only [et, e]
        simp
      · exact .cons hr .plain hse ht hse hu

/-- The statement written for a sum. -/
def sumStmt (opts : Options) (op : Op) (ls : List (Lit × Nat)) (b : Int) : Stmt :=
  .constr (ls.map (sgn opts)) op (b - (shift opts ls : Nat))

theorem sumStmt_sat (opts : Options) (op : Op) (ls : List (Lit × Nat)) (b : Int) (a : Asg) :
    rel op (isum a (ls.map (sgn opts))) (b - (shift opts ls : Nat)) ↔ rel op (wsum a ls) b := by
  rw [isum_sgn]
  cases op <;> simp only [rel] <;> omega

theorem writeSum_ok {opts : Options} {op : Op} {ls : List (Lit × Nat)} {b : Int}
    (h : ∀ p ∈ ls, VarFits opts.firstVarIdx p.1) (hw : wtotal ls ≤ 9223372036854775807)
    (hl : -9223372036854775807 ≤ b - (wtotal ls : Nat)) (hb : b ≤ 9223372036854775807) :
    ∃ T, writeSum opts (opText op) ls b = some T ∧ Adds opts.firstVarIdx [sumStmt opts op ls b] T := by
  have hsh := shift_le opts ls
  obtain ⟨u, s, e, hu, hs, he⟩ := writeTerms_ok (opts := opts) (ls := ls) fun p hp =>
    ⟨h p hp, by have := le_wtotal hp; omega⟩
  have hst : StmtText opts.firstVarIdx (sumStmt opts op ls b)
      (u ++ (s ++ (opText op ++ ([' '] ++ showInt (b - (shift opts ls : Nat)))))) :=
    .constr hu hs he (by decide) ⟨by omega, by omega⟩ .plain
  refine ⟨_, ?_, adds_stmt hst⟩
  unfold writeSum
  cases hn : opts.noNegatedLits with
  | true =>
    have e1 : writeTerm opts = termNoNeg opts := by funext p; simp [writeTerm, hn]
    have e2 : shift opts ls = negOffset ls := by simp [shift, hn]
    rw [e1] at e
    rw [e2] at hsh ⊢
    have h1 : negOffset ls ≤ isizeMax := by show negOffset ls ≤ 9223372036854775807; omega
    have h2 : isize (b - (negOffset ls : Nat)) = some (b - (negOffset ls : Nat)) := by
      rw [isize, if_pos (by show -9223372036854775808 ≤ _ ∧ _ ≤ (9223372036854775807 : Int); omega)]
    simp only [e, if_pos h1, h2, rhsText, andThen, if_true]
    simp
  | false =>
    have e1 : writeTerm opts = termNeg opts := by funext p; simp [writeTerm, hn]
    have e2 : shift opts ls = 0 := by simp [shift, hn]
    rw [e1] at e
    rw [e2]
    simp only [e, rhsText, andThen]
    simp

/-! ### Constraints -/

theorem wsum_units (a : Asg) (c : List Lit) : wsum a (units c) = countTrue a c := by
  induction c with
  | nil => rfl
  | cons l c ih =>
    have ih' : wsum a (c.map fun l => (l, 1)) = countTrue a c := ih
    simp only [units, List.map_cons, wsum, countTrue, ih']

theorem wtotal_units (c : List Lit) : wtotal (units c) = c.length := by
  induction c with
  | nil => rfl
  | cons l c ih =>
    have ih' : wtotal (c.map fun l => (l, 1)) = c.length := ih
    simp only [units, List.map_cons, wtotal, List.length_cons, ih']
    omega

theorem units_mem {P : Lit → Prop} {c : List Lit} (h : ∀ l ∈ c, P l) : ∀ p ∈ units c, P p.1 := by
  intro p hp
  obtain ⟨l, hl, e⟩ := List.mem_map.mp hp
  subst e
  exact h l hl

theorem countTrue_neg (a : Asg) (ls : List Lit) : countTrue a (ls.map Lit.neg) + countTrue a ls = ls.length := by
  induction ls with
  | nil => rfl
  | cons l ls ih =>
    simp only [List.map_cons, countTrue, Lit.holds_neg, List.length_cons]
    cases l.holds a <;> simp <;> omega

theorem wsum_neg (a : Asg) (ls : List (Lit × Nat)) : wsum a (ls.map fun p => (p.1.neg, p.2)) + wsum a ls = wtotal ls := by
  induction ls with
  | nil => rfl
  | cons p ls ih =>
    obtain ⟨l, w⟩ := p
    simp only [List.map_cons, wsum, Lit.holds_neg, wtotal]
    cases l.holds a <;> simp <;> omega

theorem wtotal_neg (ls : List (Lit × Nat)) : wtotal (ls.map fun p => (p.1.neg, p.2)) = wtotal ls := by
  induction ls with
  | nil => rfl
  | cons p ls ih => obtain ⟨l, w⟩ := p; simp only [List.map_cons, wtotal, ih]

theorem wtotal_sum (ls : List (Lit × Nat)) : (ls.map Prod.snd).sum = wtotal ls := by
  induction ls with
  | nil => rfl
  | cons p ls ih => obtain ⟨l, w⟩ := p; simp only [List.map_cons, List.sum_cons, wtotal, ih]

theorem clause_count (a : Asg) (c : Clause) : Clause.sat a c ↔ 1 ≤ countTrue a c := Clause.sat_iff_countTrue a c

theorem VarFits.neg {first : Nat} {l : Lit} (h : VarFits first l) : VarFits first l.neg := by
  rw [VarFits, Lit.var_neg]
  exact h

/-- The statements written for constraints. -/
def clauseStmt (opts : Options) (c : Clause) : Stmt := sumStmt opts .ge (units c) 1

def cardStmt (opts : Options) : CardConstraint → Stmt
  | .ub ls b => sumStmt opts .ge (units (ls.map Lit.neg)) ((ls.length : Int) - b)
  | .lb ls b => sumStmt opts .ge (units ls) b
  | .eq ls b => sumStmt opts .eq (units ls) b

def pbStmt (opts : Options) : PbConstraint → Stmt
  | .ub ls _ b => sumStmt opts .ge (ls.map fun p => (p.1.neg, p.2)) ((wtotal ls : Nat) - b)
  | .lb ls _ b => sumStmt opts .ge ls b
  | .eq ls _ b => sumStmt opts .eq ls b

/-- An assignment satisfies a constraint statement. -/
def stmtSat (a : Asg) : Stmt → Prop
  | .constr sum op b => rel op (isum a sum) b
  | .obj _ _ => True

theorem stmtsSat_iff (a : Asg) (sts : List Stmt) : stmtsSat a sts ↔ ∀ st ∈ sts, stmtSat a st := by
  constructor
  · intro h st hst
    cases st with
    | constr sum op b => exact h _ _ _ hst
    | obj _ _ => trivial
  · intro h sum op b hm
    exact h _ hm

theorem clauseStmt_sat (opts : Options) (c : Clause) (a : Asg) : stmtSat a (clauseStmt opts c) ↔ Clause.sat a c := by
  rw [clause_count]
  refine (sumStmt_sat opts .ge (units c) 1 a).trans ?_
  rw [wsum_units]
  simp only [rel]
  omega

theorem cardStmt_sat (opts : Options) (c : CardConstraint) (a : Asg) : stmtSat a (cardStmt opts c) ↔ c.sat a := by
  cases c with
  | ub ls b =>
    refine (sumStmt_sat opts .ge _ _ a).trans ?_
    have := countTrue_neg a ls
    rw [wsum_units]
    simp only [rel, CardConstraint.sat]
    omega
  | lb ls b =>
    refine (sumStmt_sat opts .ge _ _ a).trans ?_
    rw [wsum_units]
    simp only [rel, CardConstraint.sat]
    omega
  | eq ls b =>
    refine (sumStmt_sat opts .eq _ _ a).trans ?_
    rw [wsum_units]
    simp only [rel, CardConstraint.sat]
    exact Int.ofNat_inj

theorem pbStmt_sat (opts : Options) (c : PbConstraint) (a : Asg) : stmtSat a (pbStmt opts c) ↔ c.sat a := by
  cases c with
  | ub ls ws b =>
    refine (sumStmt_sat opts .ge _ _ a).trans ?_
    have := wsum_neg a ls
    simp only [rel, PbConstraint.sat]
    omega
  | lb ls ws b =>
    refine (sumStmt_sat opts .ge _ _ a).trans ?_
    exact Iff.rfl
  | eq ls ws b => exact sumStmt_sat opts .eq _ _ a

theorem writeClause_ok {opts : Options} {c : Clause} (h : ClauseFits opts.firstVarIdx c) :
    ∃ T, Opb.writeClause opts c = some T ∧ Adds opts.firstVarIdx [clauseStmt opts c] T := by
  have := h.2
  refine writeSum_ok (op := .ge) (units_mem h.1) ?_ ?_ (by omega) <;> rw [wtotal_units] <;> omega

theorem toIsize_ok {n : Nat} (h : n ≤ 9223372036854775807) : toIsize n = some (n : Int) := by
  have h' : n ≤ isizeMax := h
  rw [toIsize, if_pos h']

theorem isize_ok {i : Int} (h : InRange i) : isize i = some i := by
  have h' : isizeMin ≤ i ∧ i ≤ (isizeMax : Int) := h
  rw [isize, if_pos h']

theorem writeCard_ok {opts : Options} {c : CardConstraint} (h : CardFits opts.firstVarIdx c) :
    ∃ T, writeCard opts c = some T ∧ Adds opts.firstVarIdx [cardStmt opts c] T := by
  obtain ⟨hv, hl⟩ := h
  cases c with
  | ub ls b =>
    have hl' : ls.length + b ≤ 9223372036854775807 := hl
    rw [writeCard, toIsize_ok (by omega), toIsize_ok (by omega), subIsize, isize_ok ⟨by omega, by omega⟩, writeSum?]
    refine writeSum_ok (op := .ge) (units_mem fun l hl => ?_) ?_ ?_ (by omega)
    · obtain ⟨l', hl', e⟩ := List.mem_map.mp hl
      subst e
      exact (hv l' hl').neg
    · rw [wtotal_units, List.length_map]; omega
    · rw [wtotal_units, List.length_map]; omega
  | lb ls b =>
    have hl' : ls.length + b ≤ 9223372036854775807 := hl
    rw [writeCard, toIsize_ok (by omega), writeSum?]
    refine writeSum_ok (op := .ge) (units_mem hv) ?_ ?_ (by omega) <;> rw [wtotal_units] <;> omega
  | eq ls b =>
    have hl' : ls.length + b ≤ 9223372036854775807 := hl
    rw [writeCard, toIsize_ok (by omega), writeSum?]
    refine writeSum_ok (op := .eq) (units_mem hv) ?_ ?_ (by omega) <;> rw [wtotal_units] <;> omega

theorem writePb_ok {opts : Options} {c : PbConstraint} (h : PbFits opts.firstVarIdx c) :
    ∃ T, writePb opts c = some T ∧ Adds opts.firstVarIdx [pbStmt opts c] T := by
  obtain ⟨hv, hl⟩ := h
  cases c with
  | ub ls ws b =>
    have hl' : wtotal ls + b.natAbs ≤ 9223372036854775807 := hl
    rw [writePb, wtotal_sum, toIsize_ok (by omega), subIsize, isize_ok ⟨by omega, by omega⟩, writeSum?]
    refine writeSum_ok (op := .ge) (fun p hp => ?_) ?_ ?_ (by omega)
    · obtain ⟨p', hp', e⟩ := List.mem_map.mp hp
      subst e
      exact (hv p' hp').neg
    · rw [wtotal_neg]; omega
    · rw [wtotal_neg]; omega
  | lb ls ws b =>
    have hl' : wtotal ls + b.natAbs ≤ 9223372036854775807 := hl
    exact writeSum_ok (op := .ge) hv (by omega) (by omega) (by omega)
  | eq ls ws b =>
    have hl' : wtotal ls + b.natAbs ≤ 9223372036854775807 := hl
    exact writeSum_ok (op := .eq) hv (by omega) (by omega) (by omega)

/-! ### Objectives -/

/-- The statement written for an objective. -/
def objStmt (opts : Options) (ls : List (Lit × Nat)) : Stmt := .obj .minimize (ls.map (sgn opts))

theorem objTerm_ok {opts : Options} {p : Lit × Nat} (hv : VarFits opts.firstVarIdx p.1) (hw : p.2 ≤ 9223372036854775807) :
    ∃ t, LitText opts.firstVarIdx (sgn opts p).1 t ∧ objTerm opts p = some (' ' :: (showInt (sgn opts p).2 ++ (' ' :: t))) := by
  obtain ⟨t, ht, hc⟩ := sgn_text (opts := opts) hv
  refine ⟨t, ht, ?_⟩
  have hw' : p.2 ≤ isizeMax := hw
  have hp := Lit.isPos_eq p.1
  unfold objTerm sgn objPos objNeg
  rw [varText_ok hv]
  rcases hc with ⟨e, h | h⟩ | ⟨e, h, h'⟩
  · subst e
    simp only [h, if_true]
    cases hn : p.1.isNeg <;> rw [hn] at hp <;> simp [hw', hp]
  · subst e
    rw [h] at hp
    have hn : p.1.isNeg = false := by cases h : p.1.isNeg <;> simp [h] at hp ⊢
    cases opts.noNegatedLits <;> simp [hw', hn, h]
  · subst e
    simp [h, h']

theorem objTerms_ok {opts : Options} {ls : List (Lit × Nat)}
    (h : ∀ p ∈ ls, VarFits opts.firstVarIdx p.1 ∧ p.2 ≤ 9223372036854775807) :
    ∃ s u, writeAll (objTerm opts) ls = some (s ++ u) ∧ Spaces s ∧ SumText opts.firstVarIdx (ls.map (sgn opts)) u ∧
      (ls ≠ [] → s = [' ']) := by
  induction ls with
  | nil => exact ⟨[], [], rfl, spaces_nil, .nil, fun h => absurd rfl h⟩
  | cons p ls ih =>
    obtain ⟨s, u, e, hs, hu, he⟩ := ih fun q hq => h q (List.mem_cons_of_mem _ hq)
    obtain ⟨hv, hw⟩ := h p List.mem_cons_self
    obtain ⟨t, ht, et⟩ := objTerm_ok hv hw
    have hsp : Spaces [' '] := by decide
    have hse : Sep [' '] := ⟨by decide, hsp⟩
    have hr := sgn_range (opts := opts) hw
    cases ls with
    | nil =>
      refine ⟨[' '], showInt (sgn opts p).2 ++ ([' '] ++ t), ?_, hsp, .one hr .plain hse ht, fun _ => rfl⟩
      simp only [writeAll, et]
      simp
    | cons q ls =>
      refine ⟨[' '], showInt (sgn opts p).2 ++ ([' '] ++ (t ++ ([' '] ++ u))), ?_, hsp, ?_, fun _ => rfl⟩
      · rw [writeAll]
        simp only [et, e, he (by simp)]
        simp
      · exact .cons hr .plain hse ht hse hu

theorem adds_offset (first : Nat) (k : Int) : Adds first [] (offsetComment k) := by
  unfold offsetComment
  split
  · exact adds_nil first
  · exact adds_comment (NoBreak.append (s := " objective offset for previous objective: ".toList) ⟨by decide, by decide⟩
      (noBreak_showInt k))

theorem writeObjective_ok {opts : Options} {ls : List (Lit × Nat)} {off : Int} (h : SoftFits opts.firstVarIdx ls off) :
    ∃ t, StmtText opts.firstVarIdx (objStmt opts ls) t ∧
      writeObjective opts ls off = some (t ++ ([';', '\n'] ++ offsetComment (off + (shift opts ls : Nat)))) := by
  obtain ⟨hv, hl⟩ := h
  have hsh := shift_le opts ls
  obtain ⟨s, u, e, hs, hu, _⟩ := objTerms_ok (opts := opts) (ls := ls) fun p hp =>
    ⟨hv p hp, by have := le_wtotal hp; omega⟩
  have hst : StmtText opts.firstVarIdx (objStmt opts ls) ("min:".toList ++ (s ++ u)) := .min hs hu
  refine ⟨_, hst, ?_⟩
  have hoff : (if opts.noNegatedLits then isize (off + negOffset ls) else some off) = some (off + (shift opts ls : Nat)) := by
    have hsh' := negOffset_le ls
    unfold shift
    cases opts.noNegatedLits with
    | true =>
      exact isize_ok ⟨by omega, by omega⟩
    | false => simp
  have hot : ∀ k, offsetText (some k) = some (offsetComment k) := by
    intro k
    unfold offsetText offsetComment
    by_cases hk : k = 0 <;> simp [hk]
  unfold writeObjective
  rw [e, hoff, hot]
  simp only [prefixed, andThen]
  simp

theorem writeObjective_adds {opts : Options} {ls : List (Lit × Nat)} {off : Int} (h : SoftFits opts.firstVarIdx ls off) :
    ∃ T, writeObjective opts ls off = some T ∧ Adds opts.firstVarIdx [objStmt opts ls] T := by
  obtain ⟨t, ht, e⟩ := writeObjective_ok h
  refine ⟨_, e, ?_⟩
  have := (adds_stmt ht).append (adds_offset opts.firstVarIdx (off + (shift opts ls : Nat)))
  simpa using this

theorem negSum_sgn (opts : Options) (ls : List (Lit × Nat)) : negSum (ls.map (sgn opts)) = -(shift opts ls : Nat) := by
  unfold sgn shift
  cases opts.noNegatedLits with
  | false =>
    simp only [Bool.false_eq_true, if_false]
    induction ls with
    | nil => rfl
    | cons p ls ih =>
      simp only [List.map_cons, negSum, ih]
      rw [if_neg (by omega)]
      rfl
  | true =>
    simp only [if_true]
    induction ls with
    | nil => rfl
    | cons p ls ih =>
      obtain ⟨l, w⟩ := p
      simp only [List.map_cons, negSum, negOffset, ih]
      cases l.isPos <;> simp <;> split <;> omega

theorem objStmt_fits {opts : Options} {ls : List (Lit × Nat)} {off : Int} (h : SoftFits opts.firstVarIdx ls off) :
    Fits (objStmt opts ls) := by
  have h2 := h.2
  have hsh := shift_le opts ls
  show InRange (negSum _)
  rw [negSum_sgn]
  exact ⟨by omega, by omega⟩

/-! ### Instances -/

variable {VM : Type}

/-- The statements written for an instance. -/
def bodyStmts (opts : Options) (s : SatInstance VM) : List Stmt :=
  s.cnf.flatMap (fun c => [clauseStmt opts c]) ++
    (s.cards.flatMap (fun c => [cardStmt opts c]) ++ s.pbs.flatMap fun c => [pbStmt opts c])

theorem body_ok {opts : Options} {s : SatInstance VM} (h : InstanceFits opts.firstVarIdx s) :
    ∃ T, s.opbBody opts = some T ∧ Adds opts.firstVarIdx (bodyStmts opts s) T := by
  obtain ⟨T1, e1, h1⟩ := adds_writeAll (fun c => [clauseStmt opts c]) fun c hc => writeClause_ok (h.1 c hc)
  obtain ⟨T2, e2, h2⟩ := adds_writeAll (fun c => [cardStmt opts c]) fun c hc => writeCard_ok (h.2.1 c hc)
  obtain ⟨T3, e3, h3⟩ := adds_writeAll (fun c => [pbStmt opts c]) fun c hc => writePb_ok (h.2.2 c hc)
  refine ⟨T1 ++ (T2 ++ T3), ?_, h1.append (h2.append h3)⟩
  simp only [SatInstance.opbBody, e1, e2, e3, andThen]

theorem body_mem {opts : Options} {s : SatInstance VM} {st : Stmt} (h : st ∈ bodyStmts opts s) :
    (∃ c ∈ s.cnf, st = clauseStmt opts c) ∨ (∃ c ∈ s.cards, st = cardStmt opts c) ∨ ∃ c ∈ s.pbs, st = pbStmt opts c := by
  simpa [bodyStmts] using h

theorem body_form {opts : Options} {s : SatInstance VM} {st : Stmt} (h : st ∈ bodyStmts opts s) :
    ∃ sum b, st = .constr sum .ge b ∨ st = .constr sum .eq b := by
  rcases body_mem h with ⟨c, _, e⟩ | ⟨c, _, e⟩ | ⟨c, _, e⟩
  · exact ⟨_, _, Or.inl e⟩
  · cases c with
    | ub ls b => exact ⟨_, _, Or.inl e⟩
    | lb ls b => exact ⟨_, _, Or.inl e⟩
    | eq ls b => exact ⟨_, _, Or.inr e⟩
  · cases c with
    | ub ls _ b => exact ⟨_, _, Or.inl e⟩
    | lb ls _ b => exact ⟨_, _, Or.inl e⟩
    | eq ls _ b => exact ⟨_, _, Or.inr e⟩

theorem body_sat (opts : Options) (s : SatInstance VM) (a : Asg) : stmtsSat a (bodyStmts opts s) ↔ s.sat a := by
  rw [stmtsSat_iff]
  constructor
  · intro h
    refine ⟨fun c hc => ?_, fun c hc => ?_, fun c hc => ?_⟩
    · exact (clauseStmt_sat opts c a).mp (h _ (by simp only [bodyStmts, List.mem_append, List.mem_flatMap]; exact Or.inl ⟨c, hc, by simp⟩))
    · exact (cardStmt_sat opts c a).mp (h _ (by simp only [bodyStmts, List.mem_append, List.mem_flatMap]; exact Or.inr (Or.inl ⟨c, hc, by simp⟩)))
    · exact (pbStmt_sat opts c a).mp (h _ (by simp only [bodyStmts, List.mem_append, List.mem_flatMap]; exact Or.inr (Or.inr ⟨c, hc, by simp⟩)))
  · rintro ⟨h1, h2, h3⟩ st hst
    rcases body_mem hst with ⟨c, hc, e⟩ | ⟨c, hc, e⟩ | ⟨c, hc, e⟩
    · rw [e]; exact (clauseStmt_sat opts c a).mpr (h1 c hc)
    · rw [e]; exact (cardStmt_sat opts c a).mpr (h2 c hc)
    · rw [e]; exact (pbStmt_sat opts c a).mpr (h3 c hc)

variable [ManageVars VM]

theorem preamble_ok (s : SatInstance VM) {w : Text} (hw : NoBreak w) :
    ∀ l ∈ s.opbPreamble w, ∃ t, l = '*' :: t ∧ NoBreak t := by
  intro l hl
  simp only [SatInstance.opbPreamble, List.mem_append, List.mem_cons, List.not_mem_nil, or_false] at hl
  rcases hl with ((hl | hl) | hl) | hl | hl | hl
  · subst hl
    exact ⟨" #variable = ".toList ++ showNat (ManageVars.nUsed s.vm) ++ " #constraint= ".toList ++
      showNat (s.cnf.length + s.cards.length + s.pbs.length), rfl,
      (NoBreak.append (NoBreak.append ⟨by decide, by decide⟩ (noBreak_showNat _)) ⟨by decide, by decide⟩).append (noBreak_showNat _)⟩
  · subst hl
    exact ⟨" OPB file written by RustSAT".toList, rfl, by decide, by decide⟩
  · cases hm : ManageVars.maxVar s.vm with
    | none => rw [hm] at hl; cases hl
    | some v =>
      rw [hm] at hl
      simp only [maxVarText, List.mem_cons, List.not_mem_nil, or_false] at hl
      subst hl
      exact ⟨" maximum variable: x".toList ++ showNat v, rfl, NoBreak.append ⟨by decide, by decide⟩ (noBreak_showNat _)⟩
  · subst hl
    exact ⟨" ".toList ++ showNat s.cnf.length ++ w, rfl,
      NoBreak.append (NoBreak.append ⟨by decide, by decide⟩ (noBreak_showNat _)) hw⟩
  · subst hl
    exact ⟨" ".toList ++ showNat s.cards.length ++ " cardinality constraints".toList, rfl,
      NoBreak.append (NoBreak.append ⟨by decide, by decide⟩ (noBreak_showNat _)) ⟨by decide, by decide⟩⟩
  · subst hl
    exact ⟨" ".toList ++ showNat s.pbs.length ++ " pseudo-boolean constraints".toList, rfl,
      NoBreak.append (NoBreak.append ⟨by decide, by decide⟩ (noBreak_showNat _)) ⟨by decide, by decide⟩⟩

theorem writeSat_ok {opts : Options} {s : SatInstance VM} (h : InstanceFits opts.firstVarIdx s) :
    ∃ T, s.writeOpb opts = some T ∧ FileText opts.firstVarIdx (bodyStmts opts s) T := by
  obtain ⟨T, e, hT⟩ := body_ok h
  have hp := adds_unlines (first := opts.firstVarIdx) (preamble_ok s (w := " clauses".toList) ⟨by decide, by decide⟩)
  refine ⟨_, by rw [SatInstance.writeOpb, e, prefixed], ?_⟩
  have := (hp.append hT).file
  simpa using this

theorem iterSoftLits_value {o : Objective} {ls : List (Lit × Nat)} (h : o.iterSoftLits = some ls) (a : Asg) :
    o.value a = wsum a ls + o.offset := by
  unfold Objective.iterSoftLits at h
  by_cases hn : o.nClauses > 0
  · rw [if_pos hn] at h; cases h
  · rw [if_neg hn] at h
    cases o with
    | weighted off sl sc =>
      have hsc : sc = [] := List.length_eq_zero_iff.mp (Nat.eq_zero_of_not_pos hn)
      cases h
      simp only [Objective.value, Objective.offset, hsc, clsCost]
      omega
    | unweighted off u sl sc =>
      have hsc : sc = [] := List.length_eq_zero_iff.mp (Nat.eq_zero_of_not_pos hn)
      cases h
      have hw : wsum a (sl.map fun l => (l, u.getD 0)) = u.getD 0 * countTrue a sl := by
        clear hn
        induction sl with
        | nil => rfl
        | cons l sl ih =>
          simp only [List.map_cons, wsum, countTrue, ih, Nat.mul_add]
          cases l.holds a <;> simp
      simp only [Objective.value, Objective.offset, hsc, hw, countFalsified, Nat.add_zero]
      rw [Int.natCast_mul]
      omega

omit [ManageVars VM] in
theorem body_noLt {opts : Options} {s : SatInstance VM} : ∀ st ∈ bodyStmts opts s, NoLt st ∧ Fits st ∧ isConstr st = true := by
  intro st hst
  obtain ⟨sum, b, e | e⟩ := body_form hst
  · subst e
    exact ⟨by simp [NoLt], by simp [Fits], rfl⟩
  · subst e
    exact ⟨by simp [NoLt], by simp [Fits], rfl⟩

theorem objectives_append (s1 s2 : List Stmt) : objectives (s1 ++ s2) = objectives s1 ++ objectives s2 := by
  induction s1 with
  | nil => rfl
  | cons st s1 ih => cases st <;> simp [objectives, ih]

theorem objectives_constr {sts : List Stmt} : objectives sts = [] ↔ ∀ st ∈ sts, isConstr st = true := by
  induction sts with
  | nil => simp [objectives]
  | cons st sts ih => cases st <;> simp [objectives, ih, isConstr]

theorem stmtsSat_append (a : Asg) (s1 s2 : List Stmt) : stmtsSat a (s1 ++ s2) ↔ stmtsSat a s1 ∧ stmtsSat a s2 := by
  simp only [stmtsSat_iff, List.mem_append]
  exact ⟨fun h => ⟨fun st hs => h st (Or.inl hs), fun st hs => h st (Or.inr hs)⟩,
    fun h st hs => hs.elim (h.1 st) (h.2 st)⟩

theorem objs_written {opts : Options} {ls : List (List (Lit × Nat))} {os : List Objective}
    (h : ObjsMean (ls.map fun l => (.minimize, l.map (sgn opts))) os) :
    os.length = ls.length ∧ ∀ (k : Nat) l, ls[k]? = some l → ∃ o, os[k]? = some o ∧ o.WF ∧
      ∀ a, (wsum a l : Int) = o.value a + (shift opts l : Nat) := by
  induction ls generalizing os with
  | nil => cases h; exact ⟨rfl, fun k l h => by simp at h⟩
  | cons l ls ih =>
    cases h with
    | @cons _ _ o _ os hw hm hr =>
      obtain ⟨h1, h2⟩ := ih hr
      refine ⟨by simp [h1], fun k l' hk => ?_⟩
      cases k with
      | zero =>
        simp only [List.getElem?_cons_zero, Option.some.injEq] at hk
        subst hk
        refine ⟨o, rfl, hw, fun a => ?_⟩
        have hm' : ∀ a, o.value a = isum a (l.map (sgn opts)) := hm
        rw [hm' a, isum_sgn]
        omega
      | succ k => exact h2 k l' hk

theorem infix_of_andThen {p q T : Text} {x y : Option Text} (hx : x = some (p ++ q)) (h : andThen x y = some T) :
    ∃ r, T = p ++ q ++ r := by
  subst hx
  cases y with
  | none => cases h
  | some r => cases h; exact ⟨r, rfl⟩

end RustSat.OpbSpec
