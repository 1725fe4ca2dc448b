import Verif.Lemmas.ProofText4
import Verif.Lemmas.Opb3
import Verif.Lemmas.CertOps
/-
Proofs as data and their texts.
-/
namespace RustSat
namespace ProofText
open Text (showNat showInt splitWs isWs isDigit)
open VeriPb

/-! ### Variables of the library -/

theorem readVar_varName (v : Nat) : readVar (varName v) = some v := by
  simp only [varName, readVar, readPos_showNat (Nat.succ_pos v)]
  rfl

theorem isName_varName (v : Nat) : isName (varName v) = true := by
  obtain ⟨c, r, e, hc⟩ := showNat_cons (v + 1)
  have hd := Text.isDigit_showNat (v + 1)
  unfold varName
  rw [e] at hd ⊢
  refine isName_iff.2 ⟨'x', c, r, rfl, by decide, fun x hx => isNameChar_of_isDigit (hd x hx)⟩

theorem asLit_litAx (l : Lit) : asLit (litAx l) = some l := by
  unfold asLit litAx
  simp only [readVar_varName, Option.map_some]
  cases h : l.isNeg with
  | false => simp [OpbSpec.pos_of_isNeg.1 h]
  | true => simp [OpbSpec.pos_of_isNeg.2 h]

theorem litAx_valid (l : Lit) : (litAx l).Valid := isName_varName l.var

theorem asAll_map {α β γ : Type} {f : β → Option γ} {g : α → β} {k : α → γ} : ∀ {xs : List α}, (∀ x ∈ xs, f (g x) = some (k x)) →
    asAll f (xs.map g) = some (xs.map k)
  | [], _ => rfl
  | x :: xs, h => by
    rw [List.map_cons, asAll, h x (by simp), asAll_map fun y hy => h y (by simp [hy])]
    rfl

theorem asConstr_conOf (c : Pigeons.Constr) : asConstr (conOf c) = some c := by
  unfold asConstr conOf
  rw [asAll_map (k := id)]
  · simp
  · intro x _
    simp [asLit_litAx]

theorem conOf_valid (c : Pigeons.Constr) : (conOf c).Valid := by
  intro t ht
  obtain ⟨x, -, rfl⟩ := List.mem_map.1 ht
  exact litAx_valid x.2

theorem asOp_opOf (o : Pigeons.Op) : asOp (opOf o) = some o := by
  cases o <;> simp [opOf, asOp, asId, asLit_litAx]

/-! ### Lines -/

/-- The call that writes a line. -/
def lineCall : Pigeons.Line → Call
  | .pol ops => .operations (ops.map opOf)
  | .rup c hints => .reverseUnitProp (conOf c) (hints.map .abs)
  | .red c w => .redundant (conOf c) (w.map fun x => ⟨varName x.1, if x.2 then .true_ else .false_⟩) []
  | .del ids => .deleteIds (ids.map .abs) []

/-- What a line says. -/
def lineItem : Pigeons.Line → Item
  | .pol ops => .pol (ops.map opOf)
  | .rup c hints => .rup (conOf c) (hints.map .abs)
  | .red c w => .red (conOf c) (w.map fun x => ⟨varName x.1, if x.2 then .true_ else .false_⟩) false
  | .del ids => .delId (ids.map .abs) false

theorem writeLine_eq (short : Bool) (p : Proof) (l : Pigeons.Line) : p.writeLine short l = ((lineCall l).exec short p).map (·.2) := by
  cases l with
  | pol ops =>
    simp only [Proof.writeLine, lineCall, Call.exec, id?]
    cases p.operations short (ops.map opOf) <;> rfl
  | rup c hints => rfl
  | red c w =>
    simp only [Proof.writeLine, lineCall, Call.exec, id?]
    cases p.redundant short (conOf c) (w.map fun x => ⟨varName x.1, if x.2 then .true_ else .false_⟩) [] <;> rfl
  | del ids =>
    simp only [Proof.writeLine, lineCall, Call.exec, unit?]
    cases p.deleteIds short (ids.map .abs) [] <;> rfl

theorem says_line {n : Nat} {l : Pigeons.Line} {is : List Item} (h : (lineCall l).Says n is) : is = [lineItem l] := by
  cases l <;> exact h

theorem asLine_lineItem (l : Pigeons.Line) : (lineItem l).asLine = some l := by
  cases l with
  | pol ops =>
    simp only [lineItem, Item.asLine]
    rw [asAll_map (k := id) fun x _ => asOp_opOf x]
    simp
  | rup c hints =>
    simp only [lineItem, Item.asLine, asConstr_conOf]
    rw [asAll_map (f := asId) (k := id) fun x _ => rfl]
    simp
  | red c w =>
    simp only [lineItem, Item.asLine, asConstr_conOf]
    rw [asAll_map (k := id)]
    · simp
    · rintro ⟨v, b⟩ _
      cases b <;> simp [asSub, readVar_varName]
  | del ids =>
    simp only [lineItem, Item.asLine]
    rw [asAll_map (f := asId) (k := id) fun x _ => rfl]
    simp

/-! ### Accepted lines can be written -/

/-- All ids are positive. -/
def PosIds (s : State) : Prop := 0 < s.next ∧ ∀ x ∈ s.db, 0 < x.1

theorem PosIds.get {s : State} (h : PosIds s) {i : Nat} (hi : (s.get i).isSome = true) : 0 < i := by
  have : ∃ d, s.db.lookup i = some d := Option.isSome_iff_exists.1 hi
  obtain ⟨d, hd⟩ := this
  have : ∀ (l : List (Nat × Ineq)), l.lookup i = some d → ∃ x ∈ l, x.1 = i := by
    intro l
    induction l with
    | nil => intro h; cases h
    | cons x l ih =>
      intro h
      obtain ⟨k, e⟩ := x
      rw [List.lookup_cons] at h
      cases hk : i == k with
      | true => exact ⟨(k, e), by simp, (beq_iff_eq.1 hk).symm⟩
      | false =>
        rw [hk] at h
        obtain ⟨y, hy, e⟩ := ih h
        exact ⟨y, by simp [hy], e⟩
  obtain ⟨x, hx, rfl⟩ := this _ hd
  exact h.2 x hx

theorem PosIds.push {s : State} (h : PosIds s) (d : Ineq) : PosIds (s.push d) :=
  ⟨Nat.succ_pos _, fun x hx => by
    rcases List.mem_cons.1 hx with rfl | hx
    · exact h.1
    · exact h.2 x hx⟩

theorem PosIds.start (f : List Pigeons.Constr) : PosIds (start f) := by
  refine ⟨Nat.succ_pos _, fun x hx => ?_⟩
  obtain ⟨y, hy, rfl⟩ := List.mem_map.1 hx
  have := List.le_snd_of_mem_zipIdx hy
  omega

theorem evalOps_valid {s : State} (h : PosIds s) : ∀ {ops : Pigeons.Ops} {st st' : List Ineq}, evalOps s ops st = some st' →
    ∀ o ∈ ops, (opOf o).Valid
  | [], _, _, _ => by simp
  | o :: ops, st, st', he => by
    rw [evalOps] at he
    cases h1 : evalOp s st o with
    | none => rw [h1] at he; cases he
    | some st1 =>
      rw [h1] at he
      intro x hx
      rcases List.mem_cons.1 hx with rfl | hx
      · cases x with
        | id n =>
          refine h.get ?_
          show (s.get n).isSome = true
          cases hg : s.get n with
          | none => simp [evalOp, hg] at h1
          | some d => rfl
        | ax l => exact litAx_valid l
        | add => trivial
        | sat => trivial
        | weak => trivial
        | mult k =>
          refine Nat.pos_of_ne_zero fun hk => ?_
          subst hk
          cases st <;> simp [evalOp] at h1
        | div k =>
          refine Nat.pos_of_ne_zero fun hk => ?_
          subst hk
          cases st <;> simp [evalOp] at h1
      · exact evalOps_valid h he x hx

theorem getAll_pos {s : State} (h : PosIds s) : ∀ {ids : List Nat} {ds : List Ineq}, s.getAll ids = some ds → ∀ i ∈ ids, 0 < i
  | [], _, _ => by simp
  | i :: ids, ds, hg => by
    rw [State.getAll] at hg
    cases h1 : s.get i with
    | none => rw [h1] at hg; cases hg
    | some d =>
      cases h2 : s.getAll ids with
      | none => rw [h1, h2] at hg; cases hg
      | some es =>
        intro j hj
        rcases List.mem_cons.1 hj with rfl | hj
        · exact h.get (by rw [h1]; rfl)
        · exact getAll_pos h h2 j hj

theorem abs_valid {ids : List Nat} (h : ∀ i ∈ ids, 0 < i) : ∀ i ∈ ids.map CId.abs, i.Valid := by
  intro i hi
  obtain ⟨k, hk, rfl⟩ := List.mem_map.1 hi
  exact h k hk

theorem step_valid {s s' : State} (h : PosIds s) {l : Pigeons.Line} (hs : step s l = some s') : (lineCall l).Valid ∧ PosIds s' := by
  cases l with
  | pol ops =>
    simp only [step] at hs
    cases he : evalOps s ops [] with
    | none => rw [he] at hs; cases hs
    | some st =>
      rw [he] at hs
      match st, hs with
      | [d], hs =>
        injection hs with hs
        subst hs
        refine ⟨⟨?_, fun o ho => ?_⟩, h.push d⟩
        · cases ops with
          | nil => cases he
          | cons o ops => simp
        · obtain ⟨x, hx, rfl⟩ := List.mem_map.1 ho
          exact evalOps_valid h he x hx
  | rup c hints =>
    simp only [step] at hs
    by_cases hr : rupOk s (ofConstr c) hints = true
    · rw [if_pos hr] at hs
      injection hs with hs
      subst hs
      refine ⟨⟨conOf_valid c, abs_valid fun i hi => ?_⟩, h.push _⟩
      unfold rupOk at hr
      rw [if_neg (by rintro rfl; cases hi)] at hr
      cases hg : s.getAll hints with
      | none => rw [hg] at hr; cases hr
      | some ds => exact getAll_pos h hg i hi
    · rw [if_neg hr] at hs; cases hs
  | red c w =>
    simp only [step] at hs
    by_cases hr : redOk s (ofConstr c) w = true
    · rw [if_pos hr] at hs
      injection hs with hs
      subst hs
      refine ⟨⟨conOf_valid c, fun x hx => ?_, by simp⟩, h.push _⟩
      obtain ⟨⟨v, b⟩, -, rfl⟩ := List.mem_map.1 hx
      exact ⟨isName_varName v, fun a ha => by cases b <;> cases ha⟩
    · rw [if_neg hr] at hs; cases hs
  | del ids =>
    simp only [step] at hs
    by_cases hr : (ids.all fun id => (s.get id).isSome) = true
    · rw [if_pos hr] at hs
      injection hs with hs
      subst hs
      exact ⟨⟨abs_valid fun i hi => h.get (List.all_eq_true.1 hr i hi), by simp⟩, h.1, fun x hx => h.2 x (List.mem_filter.1 hx).1⟩
    · rw [if_neg hr] at hs; cases hs

theorem lineCall_covered (l : Pigeons.Line) : (lineCall l).Covered := by cases l <;> trivial
theorem lineCall_counts (l : Pigeons.Line) : (lineCall l).CountsIds := by cases l <;> trivial
theorem lineCall_panics (p : Proof) (l : Pigeons.Line) : ¬ (lineCall l).Panics p := by cases l <;> exact id

theorem writeLines_spec (short : Bool) : ∀ {ls : List Pigeons.Line} {s s' : State} (p : Proof), PosIds s → 0 < p.nextId → run s ls = some s' →
    ∃ q t, p.writeLines short ls = some q ∧ q.out = p.out ++ t ∧ Reads t (ls.map lineItem)
  | [], s, s', p, _, _, _ => ⟨p, [], rfl, (List.append_nil _).symm, .nil⟩
  | l :: ls, s, s', p, h, hp, hr => by
    rw [run] at hr
    cases hs : step s l with
    | none => rw [hs] at hr; cases hr
    | some s1 =>
      rw [hs] at hr
      obtain ⟨hv, h1⟩ := step_valid h hs
      obtain ⟨c1, c2⟩ := call_spec short hp hv (lineCall_covered l)
      cases he : (lineCall l).exec short p with
      | none => exact absurd (c1.1 he) (lineCall_panics p l)
      | some x =>
        obtain ⟨r, q1⟩ := x
        obtain ⟨t1, is, d⟩ := c2 r q1 he
        obtain ⟨q, t, e, o, hr⟩ := writeLines_spec short q1 h1 (Nat.lt_of_lt_of_le hp d.le) hr
        refine ⟨q, t1 ++ t, ?_, ?_, ?_⟩
        · rw [Proof.writeLines, writeLine_eq, he]; exact e
        · rw [o, d.out, List.append_assoc]
        · have := d.reads
          rw [says_line d.says] at this
          exact this.append hr

theorem checkItems_lines : ∀ {ls : List Pigeons.Line} {s s' : State} (is : List Item), run s ls = some s' →
    checkItems s (ls.map lineItem ++ is) = checkItems s' is
  | [], s, s', is, h => by
    injection h with h
    subst h; rfl
  | l :: ls, s, s', is, h => by
    rw [run] at h
    cases hs : step s l with
    | none => rw [hs] at h; cases h
    | some s1 =>
      rw [hs] at h
      have := checkItems_lines is h
      have e : checkItems s (lineItem l :: (ls.map lineItem ++ is)) = match (lineItem l).asLine with
          | none => none
          | some l => match step s l with | none => none | some s => checkItems s (ls.map lineItem ++ is) := by
        cases l <;> rfl
      rw [List.map_cons, List.cons_append, e, asLine_lineItem]
      simp only [hs]
      exact this

/-- What the checker of texts accepts is a proof. -/
theorem checkItems_sound : ∀ {is : List Item} {s s' : State} {c : Concl}, checkItems s is = some (s', c) →
    ∃ ls, run s ls = some s' ∧ concludes s' c = true
  | [], s, s', c, h => by cases h
  | i :: is, s, s', c, h => by
    rw [checkItems.eq_def] at h
    split at h
    · cases h
    · rename_i c' heq
      by_cases hc : concludes s c' = true
      · rw [if_pos hc] at h
        injection h with h
        injection h with h1 h2
        subst h1 h2
        exact ⟨[], rfl, hc⟩
      · rw [if_neg hc] at h; cases h
    · rename_i heq
      injection heq with h1 h2
      subst h1 h2
      cases hl : i.asLine with
      | none => rw [hl] at h; cases h
      | some l =>
        rw [hl] at h
        simp only at h
        cases hs : step s l with
        | none => rw [hs] at h; cases h
        | some s1 =>
          rw [hs] at h
          obtain ⟨ls, h1, h2⟩ := checkItems_sound h
          exact ⟨l :: ls, by rw [run, hs]; exact h1, h2⟩

theorem contradictory_sound {d : Ineq} (h : contradictory d = true) (b : Asg) : ¬ d.sat b := by
  intro hb
  have h1 := of_decide_eq_true h
  have h2 := lin_le_maxLin (p := []) (b := b) (fun _ _ h => by cases h) d.terms
  unfold Ineq.sat Ineq.slack at hb
  unfold Ineq.maxSlack at h1
  omega

/-! ### Histories -/

theorem newWithConclusion_reads (n : Nat) (opt : Bool) (g : Output) (c : Conclusion) :
    Reads (Proof.newWithConclusion n opt g c).out [.header, .formula n] := by
  have a : Reads ("pseudo-Boolean proof version 2.0".toList ++ ['\n']) [.header] := .line ⟨by decide, by decide, by decide⟩
  have b : Reads ("f".toList ++ ' ' :: showNat n ++ ['\n']) [.formula n] :=
    .line (num_line (w := "f".toList) (kw := .f) (by decide) (fun _ => rfl) n)
  exact a.append b

theorem lastDefault_snoc (d : Output × Conclusion) (cs : List Call) (c : Call) :
    lastDefault d (cs ++ [c]) = match c with | .updateDefaultConclusion g c => (g, c) | _ => lastDefault d cs := by
  unfold lastDefault
  rw [List.foldl_append]
  cases c <;> rfl

theorem reaches_pos {short : Bool} {p q : Proof} {cs : List Call} (hp : 0 < p.nextId) (h : Reaches short p cs q) :
    0 < q.nextId ∧ p.nextPv ≤ q.nextPv ∧ q.optimization = p.optimization := by
  induction h with
  | start => exact ⟨hp, Nat.le_refl _, rfl⟩
  | call h1 hv hc he ih =>
    obtain ⟨t, is, d⟩ := (call_spec short ih.1 hv hc).2 _ _ he
    exact ⟨Nat.lt_of_lt_of_le ih.1 d.le, Nat.le_trans ih.2.1 d.pv, d.opt.trans ih.2.2⟩

theorem history {short : Bool} {p q : Proof} {cs : List Call} (hp : 0 < p.nextId) (h : Reaches short p cs q)
    (hi : ∀ c ∈ cs, c.CountsIds) : ∃ t is, q.out = p.out ++ t ∧ Reads t is ∧ SayAll ⟨p.nextId, []⟩ cs is ∧
      Ids.run ⟨p.nextId, []⟩ is = ⟨q.nextId, []⟩ := by
  induction h with
  | start => exact ⟨[], [], (List.append_nil _).symm, .nil, .nil, rfl⟩
  | @call cs q c r q' h1 hv hc he ih =>
    obtain ⟨t, is, h2, h3, h4, h5⟩ := ih fun c hc => hi c (by simp [hc])
    obtain ⟨u, js, d⟩ := (call_spec short (reaches_pos hp h1).1 hv hc).2 _ _ he
    refine ⟨t ++ u, is ++ js, by rw [d.out, h2, List.append_assoc], h3.append d.reads, .snoc h4 ?_, ?_⟩
    · rw [h5]; exact d.says
    · rw [Ids.run_append, h5]; exact d.ids (hi c (by simp))

theorem history_default {short : Bool} {p q : Proof} {cs : List Call} (hp : 0 < p.nextId) (h : Reaches short p cs q) {g : Output}
    {c : Conclusion} (hd : p.default = (g, c.text)) (hv : c.Valid) :
    q.default = ((lastDefault (g, c) cs).1, (lastDefault (g, c) cs).2.text) ∧ (lastDefault (g, c) cs).2.Valid := by
  induction h with
  | start => exact ⟨hd, hv⟩
  | @call cs q c' r q' h1 hv' hc he ih =>
    obtain ⟨u, js, d⟩ := (call_spec short (reaches_pos hp h1).1 hv' hc).2 _ _ he
    rw [lastDefault_snoc, d.default]
    cases c' <;> first | exact ih | exact ⟨rfl, hv'⟩

theorem ending_reads {o t : Text} {is : List Item} (h : Reads o is) (ho : LineText ("output ".toList ++ t) i)
    {c : Text} (hc : LineText ("conclusion ".toList ++ c) j) :
    Reads (o ++ ("output ".toList ++ t ++ ['\n']) ++ ("conclusion ".toList ++ c ++ ['\n']) ++ ("end pseudo-Boolean proof".toList ++ ['\n']))
      (is ++ [i, j, .endProof]) := by
  have := ((h.append (.line ho)).append (.line hc)).append (Reads.line (t := "end pseudo-Boolean proof".toList) (i := .endProof)
    ⟨by decide, by decide, by decide⟩)
  simpa only [List.append_assoc, List.cons_append, List.nil_append] using this

/-! ### Ids -/

theorem Ids.give_mono (s : Ids) (n : Nat) : s.next ≤ (s.give n).next := by
  unfold Ids.give
  split
  · exact Nat.le_refl _
  · exact Nat.le_add_right _ _

theorem Ids.step_mono (s : Ids) (i : Item) : s.next ≤ (s.step i).next := by
  unfold Ids.step
  split <;> first | exact Ids.give_mono s 1 | exact Nat.le_refl _ | skip
  cases hb : s.blocks with
  | nil => exact Nat.le_refl _
  | cons b bs =>
    simp only
    by_cases h : b = .strengthening
    · rw [if_pos h]
      exact Ids.give_mono { s with blocks := bs } 1
    · rw [if_neg h]
      exact Nat.le_refl _

theorem Ids.run_mono : ∀ (is : List Item) (s : Ids), s.next ≤ (s.run is).next
  | [], _ => Nat.le_refl _
  | i :: is, s => Nat.le_trans (Ids.step_mono s i) (Ids.run_mono is (s.step i))

theorem ret_fresh {short : Bool} {p q : Proof} {c : Call} {i : Nat} {is : List Item} (he : c.exec short p = some (some i, q))
    (hs : c.Says p.nextId is) : p.nextId + 1 ≤ (Ids.run ⟨p.nextId, []⟩ is).next := by
  have key : ∀ {j : Item} {js : List Item}, is = j :: js → p.nextId + 1 ≤ (Ids.step ⟨p.nextId, []⟩ j).next →
      p.nextId + 1 ≤ (Ids.run ⟨p.nextId, []⟩ is).next := by
    rintro j js rfl h
    exact Nat.le_trans h (Ids.run_mono js _)
  have none_ : ∀ {o : Option Proof}, unit? o ≠ some (some i, q) := by
    intro o h
    cases o <;> simp [unit?] at h
  cases c with
  | operations ops => exact key hs (by simp [Ids.step, Ids.give])
  | reverseUnitProp c hints => exact key hs (by simp [Ids.step, Ids.give])
  | redundant c subs es => exact key hs (by cases h : decide (es ≠ []) <;> simp [Ids.step, Ids.give])
  | dominated c subs es => exact key hs (by cases h : decide (es ≠ []) <;> simp [Ids.step, Ids.give])
  | excludeSolution lits => exact key hs (by simp [Ids.step, Ids.give])
  | improveSolution lits => exact key hs (by simp [Ids.step, Ids.give])
  | equalsAdd c id => exact key hs (by simp [Ids.step, Ids.give])
  | impliedAdd c id => exact key hs (by simp [Ids.step, Ids.give])
  | deleteIds ids es => exact absurd he none_
  | deleteIdRange lo hi => exact absurd he none_
  | updateObjective u => exact absurd he none_
  | moveRangeToCore lo hi => exact absurd he none_
  | objEquals o => exact absurd he none_
  | defineOrder o => exact absurd he none_
  | _ => simp [Call.exec] at he

/-! ### Variables of the proof -/

theorem showNat_inj {a b : Nat} (h : showNat a = showNat b) : a = b := by
  have := congrArg readNum h
  rw [readNum_showNat, readNum_showNat] at this
  injection this

theorem isName_pv (n : Nat) : isName ('p' :: 'v' :: showNat n) = true :=
  isName_iff.2 ⟨'p', 'v', showNat n, rfl, by decide, fun x hx => by
    rcases List.mem_cons.1 hx with rfl | hx
    · decide
    · exact isNameChar_of_isDigit (Text.isDigit_showNat n x hx)⟩

/-! ### Orders -/

/-- The goals of transitivity. -/
def transGoals (ds : List (Con × List Deriv × Option (List Deriv))) : List Goal :=
  ds.zipIdx.map fun x => ⟨.specific (x.2 + 1), x.1.2.1⟩
/-- The goals of reflexivity. -/
def reflGoals (ds : List (Con × List Deriv × Option (List Deriv))) : List Goal :=
  ds.zipIdx.filterMap fun x => x.1.2.2.map fun d => ⟨.specific (x.2 + 1), d⟩

theorem order_built {name : Text} {ds : List (Con × List Deriv × Option (List Deriv))} {vs : List Text} {o : Order}
    (h : Order.Built name ds vs o) : o.name = name ∧ o.definition = ds.map (·.1) ∧ o.transProof = transGoals ds ∧
      o.reflProof.getD [] = reflGoals ds ∧ (o.reflProof = none ↔ ∀ d ∈ ds, d.2.2 = none) ∧ o.usedVars.Nodup ∧
      ∀ v, v ∈ o.usedVars ↔ v ∈ vs := by
  induction h with
  | new => exact ⟨rfl, rfl, rfl, rfl, by simp [Order.new], List.nodup_nil, fun v => Iff.rfl⟩
  | @use ds vs o v _ ih =>
    obtain ⟨h1, h2, h3, h4, h5, h6, h7⟩ := ih
    unfold Order.useVar
    by_cases hv : v ∈ o.usedVars
    · simp only [if_pos hv]
      refine ⟨h1, h2, h3, h4, h5, h6, fun w => ?_⟩
      rw [h7, List.mem_append, List.mem_singleton]
      constructor
      · exact Or.inl
      · rintro (h | rfl)
        · exact h
        · exact (h7 _).1 hv
    · simp only [if_neg hv]
      refine ⟨h1, h2, h3, h4, h5, ?_, fun w => ?_⟩
      · rw [List.nodup_append]
        refine ⟨h6, by simp, fun a ha b hb => ?_⟩
        rintro rfl
        rw [List.mem_singleton] at hb
        exact hv (hb ▸ ha)
      · rw [List.mem_append, List.mem_append, h7]
  | @add ds vs o c trans refl _ ih =>
    obtain ⟨h1, h2, h3, h4, h5, h6, h7⟩ := ih
    have hl : o.definition.length = ds.length := by rw [h2, List.length_map]
    unfold Order.addDefinition
    refine ⟨h1, ?_, ?_, ?_, ?_, h6, h7⟩
    · simp [h2]
    · simp [h3, transGoals, List.zipIdx_append, hl]
    · cases refl with
      | none => simpa [reflGoals, List.zipIdx_append] using h4
      | some d =>
        cases hr : o.reflProof with
        | none =>
          rw [hr] at h4
          simp [reflGoals, List.zipIdx_append, hl]
          simpa [reflGoals] using h4.symm
        | some gs =>
          rw [hr] at h4
          simp [reflGoals, List.zipIdx_append, hl]
          simpa [reflGoals] using h4
    · cases refl with
      | none =>
        simp only [h5]
        constructor
        · intro h d hd
          rcases List.mem_append.1 hd with hd | hd
          · exact h d hd
          · rw [List.mem_singleton.1 hd]
        · exact fun h d hd => h d (List.mem_append_left _ hd)
      | some d =>
        constructor
        · intro h
          simp only at h
          cases hr : o.reflProof <;> rw [hr] at h <;> cases h
        · intro h
          have := h (c, trans, some d) (by simp)
          cases this

/-! ### Files -/

theorem run_posIds : ∀ {ls : List Pigeons.Line} {s s' : State}, PosIds s → run s ls = some s' → PosIds s'
  | [], _, _, h, hr => by
    injection hr with hr
    exact hr ▸ h
  | l :: ls, s, s', h, hr => by
    rw [run] at hr
    cases hs : step s l with
    | none => rw [hs] at hr; cases hr
    | some s1 =>
      rw [hs] at hr
      exact run_posIds (step_valid h hs).2 hr

theorem checked_text (short : Bool) {f : List Pigeons.Constr} {p : Pigeons.Proof} {s : State}
    (h : run (start f) p.lines = some s) {c : Conclusion} {r : Concl} (hv : c.Valid) (hs : ∀ r', c.Says r' ↔ r' = r)
    (hc : concludes s r = true) :
    ∃ t, proofFile short f.length p .none c = some t ∧ checkText f t = some (s, r) := by
  obtain ⟨q, t, h1, h2, h3⟩ := writeLines_spec short (Proof.new f.length false) (PosIds.start f) (Nat.succ_pos _) h
  have ho : Reads q.out ([.header, .formula f.length] ++ p.lines.map lineItem) := by
    rw [h2]
    exact (newWithConclusion_reads f.length false .none .none).append h3
  obtain ⟨r', hr, hl⟩ := conclusion_line hv
  have hr' := (hs r').1 hr
  subst hr'
  have he := (ending_reads ho (output_line .none) hl).read
  refine ⟨q.conclude .none c, by rw [proofFile, h1], ?_⟩
  have he' : readProof (q.conclude .none c) =
      some (.header :: .formula f.length :: (p.lines.map lineItem ++ [.output .none, .conclusion r', .endProof])) := he
  unfold checkText
  rw [he']
  show (if f.length = f.length then _ else _) = _
  rw [if_pos rfl, checkItems_lines _ h]
  show (if concludes s r' = true then _ else _) = _
  rw [if_pos hc]

end ProofText
end RustSat
