import Verif.Lemmas.ProofText3
/-
What every call of the proof logging library says, and the ids.
-/
namespace RustSat
namespace ProofText
open Text (showNat showInt splitWs isWs isDigit)

/-! ### Ids -/

theorem Ids.give_give (s : Ids) (a b : Nat) : (s.give a).give b = s.give (a + b) := by
  unfold Ids.give
  by_cases h : Block.order ∈ s.blocks
  · simp [h]
  · simp [h, Nat.add_assoc]

theorem Ids.give_zero (s : Ids) : s.give 0 = s := by
  unfold Ids.give
  split <;> rfl

theorem Ids.blocks_give (s : Ids) (n : Nat) : (s.give n).blocks = s.blocks := by
  unfold Ids.give
  split <;> rfl

theorem Ids.run_append (s : Ids) (a b : List Item) : s.run (a ++ b) = (s.run a).run b := List.foldl_append
theorem Ids.run_cons (s : Ids) (i : Item) (is : List Item) : s.run (i :: is) = (s.step i).run is := rfl

theorem Ids.step_deriv (s : Ids) (d : Deriv) : s.step d.item = s.give 1 := by cases d <;> rfl

theorem Ids.run_derivs (s : Ids) : ∀ ds : List Deriv, s.run (ds.map Deriv.item) = s.give ds.length
  | [] => (Ids.give_zero s).symm
  | d :: ds => by
    rw [List.map_cons, Ids.run_cons, Ids.step_deriv, Ids.run_derivs _ ds, Ids.give_give, List.length_cons, Nat.add_comm]

theorem Ids.run_goal (s : Ids) (g : Goal) : s.run g.items = s.give (1 + g.derivations.length) := by
  rw [Goal.items, Ids.run_cons, Ids.run_append, Ids.run_derivs]
  show Ids.give (s.give 1) _ = _
  rw [Ids.give_give]

theorem Ids.run_element (s : Ids) (e : Element) : s.run e.items = s.give e.count := by
  cases e with
  | deriv d => exact Ids.step_deriv s d
  | goal g => exact Ids.run_goal s g

theorem Ids.run_elements (s : Ids) : ∀ es : List Element, s.run (es.flatMap Element.items) = s.give (countIds es)
  | [] => (Ids.give_zero s).symm
  | e :: es => by
    rw [List.flatMap_cons, Ids.run_append, Ids.run_element, Ids.run_elements _ es, Ids.give_give]
    rfl

theorem Ids.run_goals_order {s : Ids} (h : Block.order ∈ s.blocks) : ∀ gs : List Goal, s.run (gs.flatMap Goal.items) = s
  | [] => rfl
  | g :: gs => by
    rw [List.flatMap_cons, Ids.run_append, Ids.run_goal]
    have : s.give (1 + g.derivations.length) = s := if_pos h
    rw [this, Ids.run_goals_order h gs]

theorem Ids.run_cons_items (s : Ids) : ∀ cs : List Con, s.run (cs.map Item.con) = s
  | [] => rfl
  | _ :: cs => Ids.run_cons_items s cs

theorem Ids.run_order (n : Nat) (o : Order) : Ids.run ⟨n, []⟩ o.items = ⟨n, []⟩ := by
  unfold Order.items
  simp only [Ids.run_append]
  have e1 : Ids.run ⟨n, []⟩ [.defOrder o.name, .vars, .left (o.usedVars.map ("u_".toList ++ ·)), .right (o.usedVars.map ("v_".toList ++ ·)),
      .aux [], .endBlock, .definition] = ⟨n, [.order, .order]⟩ := rfl
  rw [e1, Ids.run_cons_items]
  have e2 : Ids.run ⟨n, [.order, .order]⟩ [.endBlock, .transitivity, .vars, .freshRight (o.usedVars.map ("w_".toList ++ ·)), .endBlock, .proof] =
      ⟨n, [.order, .order]⟩ := rfl
  rw [e2, Ids.run_goals_order (by simp)]
  have e3 : Ids.run ⟨n, [.order, .order]⟩ [.qed none, .endBlock] = ⟨n, [.order]⟩ := rfl
  rw [e3]
  cases o.reflProof with
  | none => rfl
  | some gs =>
    simp only [reflItems, Ids.run_append]
    have e4 : Ids.run ⟨n, [.order]⟩ [.reflexivity, .proof] = ⟨n, [.order, .order]⟩ := rfl
    rw [e4, Ids.run_goals_order (by simp), e3]
    rfl

theorem Ids.give_open (n k : Nat) (bs : List Block) (h : Block.order ∉ bs) : Ids.give ⟨n, bs⟩ k = ⟨n + k, bs⟩ := if_neg h

/-- The ids of a step for a constraint, possibly with a sub-proof. -/
theorem Ids.run_strengthening (n : Nat) (i : Bool → Item) (es : List Element) (h0 : ∀ s : Ids, s.step (i false) = s.give 1)
    (h1 : ∀ s : Ids, s.step (i true) = { (s.give 1) with blocks := .strengthening :: s.blocks }) :
    Ids.run ⟨n, []⟩ (i (decide (es ≠ [])) :: subproofItems es) = ⟨n + (if es = [] then 0 else 1 + countIds es) + 1, []⟩ := by
  by_cases he : es = []
  · subst he
    rw [Ids.run_cons]
    simp only [ne_eq, not_true_eq_false, decide_false, h0]
    rfl
  · rw [Ids.run_cons, subproofItems, if_neg he, if_neg he, Ids.run_append]
    simp only [ne_eq, he, not_false_eq_true, decide_true, h1]
    rw [Ids.run_elements]
    show Ids.run (Ids.give ⟨n + 1, [.strengthening]⟩ _) _ = _
    rw [Ids.give_open _ _ _ (by simp)]
    show Ids.give ⟨n + 1 + countIds es, []⟩ 1 = _
    rw [Ids.give_open _ _ _ (by simp), Nat.add_assoc n]

/-- The ids of a deletion. -/
theorem Ids.run_deletion (n : Nat) (ids : List CId) (es : List Element) :
    Ids.run ⟨n, []⟩ (.delId ids (decide (es ≠ [])) :: subproofItems es) = ⟨n + (if es = [] then 0 else 1 + countIds es), []⟩ := by
  by_cases he : es = []
  · subst he; rfl
  · rw [Ids.run_cons, subproofItems, if_neg he, if_neg he, Ids.run_append]
    simp only [ne_eq, he, not_false_eq_true, decide_true]
    rw [Ids.run_elements]
    show Ids.run (Ids.give ⟨n + 1, [.other]⟩ _) _ = _
    rw [Ids.give_open _ _ _ (by simp), Nat.add_assoc n]
    rfl

/-! ### Ranges -/

theorem CId.value_increment {n : Nat} {i : CId} (h : i.Valid) : (i.increment n).value n = i.value n + 1 := by
  cases i with
  | abs k => simp [CId.increment, CId.value]
  | rel k =>
    have : 0 < k := h
    unfold CId.increment
    by_cases hk : k = 1
    · simp only [hk, if_pos, CId.value]; omega
    · simp only [if_neg hk, CId.value]; omega

theorem CId.valid_increment {n : Nat} (hn : 0 < n) {i : CId} (h : i.Valid) : (i.increment n).Valid := by
  cases i with
  | abs k => exact Nat.succ_pos k
  | rel k =>
    have : 0 < k := h
    unfold CId.increment
    by_cases hk : k = 1
    · simp only [hk, if_pos]; exact hn
    · simp only [if_neg hk]
      show 0 < k - 1
      omega

theorem range_valid {n : Nat} (hn : 0 < n) {lo hi : Proof.Bound} (hl : lo.Valid) (hh : hi.Valid) :
    (Proof.rangeStart n lo).Valid ∧ (Proof.rangeEnd n hi).Valid := by
  refine ⟨?_, ?_⟩
  · cases lo with
    | included b => exact hl
    | excluded b => exact CId.valid_increment hn hl
    | unbounded => exact Nat.one_pos
  · cases hi with
    | included b => exact CId.valid_increment hn hh
    | excluded b => exact hh
    | unbounded => exact hn

theorem between_iff {n : Nat} {lo hi : Proof.Bound} (hl : lo.Valid) (hh : hi.Valid) (i : Int) :
    Between n (Proof.rangeStart n lo) (Proof.rangeEnd n hi) i ↔ InRange n lo hi i := by
  unfold Between InRange
  refine and_congr ?_ ?_
  · cases lo with
    | included b => exact Iff.rfl
    | excluded b =>
      show (b.increment n).value n ≤ i ↔ b.value n < i
      rw [CId.value_increment hl]; omega
    | unbounded => exact Iff.rfl
  · cases hi with
    | included b =>
      show i < (b.increment n).value n ↔ i ≤ b.value n
      rw [CId.value_increment hh]; omega
    | excluded b => exact Iff.rfl
    | unbounded => exact Iff.rfl

theorem makeAbsolute_eq {n : Nat} {i : CId} (h : i.Valid) :
    (0 < i.value n → ∃ k, i.makeAbsolute n = some k ∧ (k : Int) = i.value n) ∧ (i.value n ≤ 0 → i.makeAbsolute n = none) := by
  cases i with
  | abs k =>
    have : 0 < k := h
    refine ⟨fun _ => ⟨k, rfl, rfl⟩, fun h => ?_⟩
    have : (k : Int) ≤ 0 := h
    omega
  | rel k =>
    refine ⟨fun h => ?_, fun h => ?_⟩
    · have : (0 : Int) < n - k := h
      refine ⟨n - k, if_pos (by omega), ?_⟩
      show ((n - k : Nat) : Int) = n - k
      omega
    · have : (n : Int) - k ≤ 0 := h
      exact if_neg (by omega)

theorem less_eq {n : Nat} {a b : CId} (ha : a.Valid) (hb : b.Valid) :
    a.less n b = some true ↔ 0 < a.value n ∧ a.value n < b.value n := by
  unfold CId.less
  by_cases h1 : 0 < b.value n
  · obtain ⟨y, e1, hy⟩ := (makeAbsolute_eq hb).1 h1
    rw [e1]
    by_cases h2 : 0 < a.value n
    · obtain ⟨x, e2, hx⟩ := (makeAbsolute_eq ha).1 h2
      rw [e2]
      simp only [Option.some.injEq, decide_eq_true_eq]
      omega
    · rw [(makeAbsolute_eq ha).2 (by omega)]
      simp only [reduceCtorEq, false_iff]
      omega
  · rw [(makeAbsolute_eq hb).2 (by omega)]
    simp only [reduceCtorEq, false_iff]
    omega

/-- When a range can be written. -/
theorem range_ok {n : Nat} (hn : 0 < n) {lo hi : Proof.Bound} (hl : lo.Valid) (hh : hi.Valid) :
    (Proof.rangeStart n lo).less n (Proof.rangeEnd n hi) = some true ↔
      (∃ i, InRange n lo hi i) ∧ ∀ i, InRange n lo hi i → 0 < i := by
  obtain ⟨va, vb⟩ := range_valid hn hl hh
  rw [less_eq va vb]
  simp only [← between_iff hl hh]
  unfold Between
  constructor
  · rintro ⟨h1, h2⟩
    exact ⟨⟨_, Int.le_refl _, h2⟩, fun i hi => by omega⟩
  · rintro ⟨⟨i, h1, h2⟩, h3⟩
    have := h3 _ ⟨Int.le_refl _, by omega⟩
    exact ⟨this, by omega⟩

theorem rangeLine_spec {p : Proof} (hn : 0 < p.nextId) {lo hi : Proof.Bound} (hl : lo.Valid) (hh : hi.Valid) (word : Text) :
    (p.rangeLine word lo hi = none ↔ ¬ ((∃ i, InRange p.nextId lo hi i) ∧ ∀ i, InRange p.nextId lo hi i → 0 < i)) ∧
    ∀ q, p.rangeLine word lo hi = some q →
      q = p.writeln (word ++ (Proof.rangeStart p.nextId lo).text ++ ' ' :: (Proof.rangeEnd p.nextId hi).text) := by
  rw [← range_ok hn hl hh]
  have e : ∀ x, (Proof.rangeStart p.nextId lo).less p.nextId (Proof.rangeEnd p.nextId hi) = x → p.rangeLine word lo hi =
      match x with
      | some true => some (p.writeln (word ++ (Proof.rangeStart p.nextId lo).text ++ ' ' :: (Proof.rangeEnd p.nextId hi).text))
      | _ => none := fun x h => by subst h; rfl
  rw [e _ rfl]
  cases (Proof.rangeStart p.nextId lo).less p.nextId (Proof.rangeEnd p.nextId hi) with
  | none => simp
  | some b => cases b <;> simp [eq_comm]

/-! ### Calls -/

/-- What a call does. -/
structure Does (p q : Proof) (c : Call) (r : Option Nat) (t : Text) (is : List Item) : Prop where
  out : q.out = p.out ++ t
  reads : Reads t is
  says : c.Says p.nextId is
  le : p.nextId ≤ q.nextId
  ids : c.CountsIds → Ids.run ⟨p.nextId, []⟩ is = ⟨q.nextId, []⟩
  ret : ∀ i, r = some i → i + 1 = q.nextId
  opt : q.optimization = p.optimization
  default : q.default = match c with | .updateDefaultConclusion g c => (g, c.text) | _ => p.default
  pv : p.nextPv ≤ q.nextPv

theorem reads_eq {x y : Text} {is js : List Item} (h : Reads x is) (e : x = y) (f : is = js) : Reads y js := by
  subst e f; exact h

/-- A line that gives no id. -/
theorem Does.line {p : Proof} {c : Call} {l : Text} {i : Item} (hl : LineText l i) (hs : c.Says p.nextId [i])
    (hi : Ids.step ⟨p.nextId, []⟩ i = ⟨p.nextId, []⟩) (hd : ∀ g x, c ≠ .updateDefaultConclusion g x) :
    Does p (p.writeln l) c none (l ++ ['\n']) [i] where
  out := rfl
  reads := .line hl
  says := hs
  le := Nat.le_refl _
  ids := fun _ => hi
  ret := fun _ h => by cases h
  opt := rfl
  default := by cases c <;> first | rfl | exact absurd rfl (hd _ _)
  pv := Nat.le_refl _

/-- A line that gives an id. -/
theorem Does.idLine {p : Proof} {c : Call} {l : Text} {i : Item} (hl : LineText l i) (hs : c.Says p.nextId [i])
    (hi : Ids.step ⟨p.nextId, []⟩ i = ⟨p.nextId + 1, []⟩) (hd : ∀ g x, c ≠ .updateDefaultConclusion g x) :
    Does p (p.writeln l).newId.2 c (some (p.writeln l).newId.1) (l ++ ['\n']) [i] where
  out := rfl
  reads := .line hl
  says := hs
  le := Nat.le_succ _
  ids := fun _ => hi
  ret := fun _ h => by injection h with h; subst h; rfl
  opt := rfl
  default := by cases c <;> first | rfl | exact absurd rfl (hd _ _)
  pv := Nat.le_refl _

theorem comment_silent {t : Text} (h : NL t) : Reads ("* ".toList ++ t ++ ['\n']) [] := by
  have e : splitWs ("* ".toList ++ t) = ['*'] :: splitWs t := splitWs_sp ['*'] t
  refine .silent (NL.append (by decide) h) ?_
  rw [e]; rfl

theorem chomp_nl {l : Text} (h : NL l) : NL (Text.chomp (l ++ ['\n'])) := by
  unfold Text.chomp
  rw [List.reverse_append]
  show NL (match ['\n'] ++ l.reverse with | '\n' :: '\r' :: r => r.reverse | '\n' :: r => r.reverse | _ => _)
  split
  · rename_i r h'
    have : l.reverse = '\r' :: r := by injection h'
    have hl : l = r.reverse ++ ['\r'] := by rw [← List.reverse_reverse l, this, List.reverse_cons]
    intro hm
    exact h (by rw [hl]; simp only [List.mem_append]; exact .inl hm)
  · rename_i r _ h'
    have : l.reverse = r := by injection h'
    rw [← this, List.reverse_reverse]; exact h
  · rename_i h1 h2
    exact absurd rfl (h2 l.reverse)

theorem chomp_last {l : Text} (h : NL l) : Text.chomp l = l := by
  unfold Text.chomp
  split
  · rename_i h'
    exact absurd (show '\n' ∈ l by rw [← List.mem_reverse, h']; simp) h
  · rename_i h'
    exact absurd (show '\n' ∈ l by rw [← List.mem_reverse, h']; simp) h
  · rfl

theorem exists_line : ∀ s : Text, s ≠ [] → (NL s ∨ ∃ l r, NL l ∧ s = l ++ '\n' :: r)
  | [], h => absurd rfl h
  | c :: s, _ => by
    by_cases hc : c = '\n'
    · exact .inr ⟨[], s, NL.nil, by rw [hc]; rfl⟩
    · by_cases hs : s = []
      · exact .inl (by rw [hs]; exact .cons hc NL.nil)
      · rcases exists_line s hs with h | ⟨l, r, h1, h2⟩
        · exact .inl (.cons hc h)
        · exact .inr ⟨c :: l, r, .cons hc h1, by rw [h2]; rfl⟩

theorem lines_nl (s : Text) : ∀ l ∈ Text.lines s, NL l := by
  generalize hn : s.length = n
  induction n using Nat.strongRecOn generalizing s with
  | ind n ih =>
    intro l hl
    by_cases hs : s = []
    · subst hs; cases hl
    · rcases exists_line s hs with h | ⟨a, r, h1, h2⟩
      · unfold Text.lines at hl
        rw [Text.readLines_last h hs] at hl
        rw [List.mem_singleton.1 hl, chomp_last h]; exact h
      · unfold Text.lines at hl
        rw [h2, Text.readLines_line h1, List.map_cons] at hl
        rcases List.mem_cons.1 hl with hl | hl
        · rw [hl]; exact chomp_nl h1
        · exact ih r.length (by rw [← hn, h2]; simp; omega) r rfl l hl

theorem comments_spec : ∀ (ls : List Text) (p : Proof), (∀ l ∈ ls, NL l) →
    ∃ t, ls.foldl Proof.comment p = { p with out := p.out ++ t } ∧ Reads t []
  | [], p, _ => ⟨[], by simp, .nil⟩
  | l :: ls, p, h => by
    obtain ⟨t, e, r⟩ := comments_spec ls (p.comment l) fun x hx => h x (by simp [hx])
    refine ⟨"* ".toList ++ l ++ ['\n'] ++ t, ?_, (comment_silent (h l (by simp))).append r⟩
    rw [List.foldl_cons, e]
    simp [Proof.comment, Proof.writeln]

theorem subs_line {w : Text} {kw : Kw} {i : Con → List Sub → Bool → Item} (hk : IsKw w kw)
    (hr : ∀ ts, readArgs kw ts = (conSubs ts).map fun x => i x.1 x.2.1 x.2.2) {c : Con} {subs : List Sub} (hc : c.Valid)
    (hs : ∀ s ∈ subs, s.Valid) (es : List Element) :
    LineText (w ++ ' ' :: (c.text ++ " ; ".toList ++ subsText subs) ++ (if es = [] then [] else " ; begin".toList))
      (i c subs (decide (es ≠ []))) := by
  by_cases he : es = []
  · subst he
    rw [if_pos rfl, List.append_nil]
    refine .mk hk (.conSemi_more hc (.subs hs)) ?_
    rw [hr, conSubs_ok hc hs]; rfl
  · rw [if_neg he]
    have w1 : Ws (subsText subs ++ " ; begin".toList) (subsWords subs ++ [[';'], "begin".toList]) :=
      (Ws.subs hs).append_literal (b := "; begin".toList) ⟨by decide, by decide⟩ rfl
    have := LineText.mk hk (.conSemi_more hc w1) (i := i c subs true) (by rw [hr, conSubs_begin hc hs]; rfl)
    simp only [ne_eq, he, not_false_eq_true, decide_true]
    simpa only [List.append_assoc, List.cons_append] using this

theorem del_line {ids : List CId} (h : IdsValid ids) (es : List Element) :
    LineText ("del id ".toList ++ idsText ids ++ " ;".toList ++ (if es = [] then [] else " ; begin".toList))
      (.delId ids (decide (es ≠ []))) := by
  have hk : IsKw "del".toList .del := by decide
  have hr : ∀ ts, readArgs .del ("id".toList :: ts) = (delIds ts).map fun x => .delId x.1 x.2 := fun ts => rfl
  have pre : ∀ (x : Text) (ws : List Text) (b : Bool), Ws x ws → delIds (ids.map CId.text ++ ws) = some (ids, b) →
      LineText ("del id ".toList ++ (idsText ids ++ ' ' :: x)) (.delId ids b) := by
    intro x ws b hx hd
    have w1 : Ws ("id".toList ++ ' ' :: (idsText ids ++ ' ' :: x)) (["id".toList] ++ (ids.map CId.text ++ ws)) :=
      Ws.sp ⟨by decide, by decide⟩ ((Ws.ids ids).sp hx)
    exact LineText.mk hk w1 (by show readArgs .del ("id".toList :: (ids.map CId.text ++ ws)) = _; rw [hr, hd]; rfl)
  by_cases he : es = []
  · subst he
    rw [if_pos rfl, List.append_nil, List.append_assoc]
    exact pre [';'] [[';']] false ⟨by decide, by decide⟩ (delIds_ok h)
  · rw [if_neg he]
    simp only [ne_eq, he, not_false_eq_true, decide_true]
    have := pre "; ; begin".toList [[';'], [';'], "begin".toList] true ⟨by decide, by decide⟩ (delIds_begin h)
    rw [List.append_assoc, List.append_assoc]
    exact this

theorem conLine_spec {w : Text} {kw : Kw} {i : Con → Option CId → Item} (hk : IsKw w kw)
    (hr : ∀ ts, readArgs kw ts = (conRef ts).map fun x => i x.1 x.2) {c : Con} {id : Option CId} (hc : c.Valid)
    (hi : ∀ j, id = some j → j.Valid) (p : Proof) : ∃ l, p.conLine (w ++ [' ']) c id = p.writeln l ∧ LineText l (i c id) := by
  cases id with
  | none =>
    refine ⟨_, rfl, ?_⟩
    have := LineText.mk hk (.conSemi hc) (i := i c none) (by rw [hr, conRef_ok hc]; rfl)
    simpa only [List.append_assoc, List.cons_append, List.nil_append] using this
  | some j =>
    refine ⟨_, rfl, ?_⟩
    have := LineText.mk hk (.conSemi_more hc (.id j)) (i := i c (some j)) (by rw [hr, conRef_some hc (hi j rfl)]; rfl)
    simpa only [List.append_assoc, List.cons_append, List.nil_append] using this

theorem ids_line {w : Text} {kw : Kw} {i : List CId → Item} (hk : IsKw w kw) (hr : ∀ ts, readArgs kw ts = (readAll readRef ts).map i)
    {ids : List CId} (h : IdsValid ids) : LineText (w ++ ' ' :: idsText ids) (i ids) :=
  .mk hk (.ids ids) (by rw [hr, readAll_refs h]; rfl)

theorem lits_line {w : Text} {kw : Kw} {i : List Ax → Item} (hk : IsKw w kw) (hr : ∀ ts, readArgs kw ts = (readAll readLit ts).map i)
    {lits : List Ax} (h : ∀ a ∈ lits, a.Valid) : LineText (w ++ ' ' :: litsText lits) (i lits) :=
  .mk hk (.lits h) (by rw [hr, readAll_lits h]; rfl)

theorem num_line {w : Text} {kw : Kw} {i : Nat → Item} (hk : IsKw w kw) (hr : ∀ ts, readArgs kw ts = (oneNum ts).map i) (n : Nat) :
    LineText (w ++ ' ' :: showNat n) (i n) :=
  .mk hk (.num n) (by rw [hr]; show (readNum (showNat n)).map i = _; rw [readNum_showNat]; rfl)

/-- An objective with its semicolon. -/
theorem Ws.objSemi {o : Obj} (h : o.Valid) : Ws (o.text ++ " ;".toList) (sumWords o.sum ++ [[';']]) :=
  (Ws.sum h).append_literal (b := [';']) ⟨by decide, by decide⟩ rfl

theorem Ws.objBegin {o : Obj} (h : o.Valid) : Ws (o.text ++ " ; begin".toList) (sumWords o.sum ++ [[';'], "begin".toList]) :=
  (Ws.sum h).append_literal (b := "; begin".toList) ⟨by decide, by decide⟩ rfl

theorem range_line {w1 w2 : Text} {kw : Kw} {i : CId → CId → Item} (hk : IsKw w1 kw) (hw : splitWs w2 = [w2] ∧ NL w2)
    (hr : ∀ ts, readArgs kw (w2 :: ts) = (twoRefs ts).map fun x => i x.1 x.2) {a b : CId} (ha : a.Valid) (hb : b.Valid) :
    LineText (w1 ++ ' ' :: (w2 ++ ' ' :: (a.text ++ ' ' :: b.text))) (i a b) :=
  .mk hk (Ws.sp hw ((Ws.id a).sp (.id b))) (by show readArgs kw (w2 :: [a.text, b.text]) = _; rw [hr, twoRefs_ok ha hb]; rfl)

theorem flatMap_goal : ∀ gs : List Goal, (gs.map Element.goal).flatMap Element.items = gs.flatMap Goal.items
  | [] => rfl
  | g :: gs => by
    rw [List.map_cons, List.flatMap_cons, List.flatMap_cons, flatMap_goal gs]
    rfl

/-- **Every call.** -/
theorem call_spec (short : Bool) {p : Proof} (hp : 0 < p.nextId) {c : Call} (hv : c.Valid) (hc : c.Covered) :
    (c.exec short p = none ↔ c.Panics p) ∧ ∀ r q, c.exec short p = some (r, q) → ∃ t is, Does p q c r t is := by
  have done : ∀ {r : Option Nat} {q : Proof} {t : Text} {is : List Item}, c.exec short p = some (r, q) → Does p q c r t is → ¬ c.Panics p →
      (c.exec short p = none ↔ c.Panics p) ∧ ∀ r q, c.exec short p = some (r, q) → ∃ t is, Does p q c r t is := by
    intro r q t is e d hn
    refine ⟨⟨fun h => (by rw [e] at h; cases h), fun h => absurd h hn⟩, fun r' q' h => ?_⟩
    rw [e] at h
    injection h with h
    injection h with h1 h2
    subst h1 h2
    exact ⟨t, is, d⟩
  have np : ∀ {x : Prop}, x = False → ¬ x := fun h => h ▸ id
  cases c with
  | newProofVar =>
    exact done (is := []) rfl ⟨(List.append_nil _).symm, .nil, rfl, Nat.le_refl _, fun _ => rfl, fun _ h => (by cases h), rfl, rfl, Nat.le_succ _⟩ (np rfl)
  | verifyNumConstraints n =>
    exact done rfl (Does.line (num_line (w := "f".toList) (kw := .f) (by decide) (fun _ => rfl) n) rfl rfl (by simp)) (np rfl)
  | comment t =>
    exact done (is := []) rfl ⟨rfl, comment_silent hv, rfl, Nat.le_refl _, fun _ => rfl, fun _ h => (by cases h), rfl, rfl, Nat.le_refl _⟩ (np rfl)
  | multilineComment t =>
    obtain ⟨u, e, hr⟩ := comments_spec (Text.lines t) p (lines_nl t)
    have e : p.multilineComment t = { p with out := p.out ++ u } := e
    exact done (is := []) (r := none) (q := { p with out := p.out ++ u }) (by rw [Call.exec, e])
      ⟨rfl, hr, rfl, Nat.le_refl _, fun _ => rfl, fun _ h => (by cases h), rfl, rfl, Nat.le_refl _⟩ (np rfl)
  | updateDefaultConclusion g c =>
    exact done (is := []) rfl ⟨(List.append_nil _).symm, .nil, rfl, Nat.le_refl _, fun _ => rfl, fun _ h => (by cases h), rfl, rfl, Nat.le_refl _⟩ (np rfl)
  | operations ops =>
    exact done (by simp only [Call.exec, Proof.operations, opsText_eq hv]; rfl) (Does.idLine (pol_line short hv) rfl rfl (by simp)) (np rfl)
  | reverseUnitProp c hints =>
    obtain ⟨h1, h2⟩ := hv
    by_cases hh : hints = []
    · subst hh
      refine done (by simp only [Call.exec, Proof.reverseUnitProp]; rw [if_pos True.intro]; rfl)
        (Does.idLine (i := .rup c []) ?_ rfl rfl (by simp)) (np rfl)
      exact .mk (rupWord_kw short) (.conSemi h1) (by
        have := readArgs_rup (hints := []) h1 (by simp)
        simpa using this)
    · exact done (by simp only [Call.exec, Proof.reverseUnitProp]; rw [if_neg hh]; rfl)
        (Does.idLine (rup_line short h1 h2) rfl rfl (by simp)) (np rfl)
  | deleteIds ids es =>
    obtain ⟨h1, h2⟩ := hv
    obtain ⟨q, t, e, o, hr, hi, hs⟩ := writeSubproof_spec short (p.write ("del id ".toList ++ idsText ids ++ " ;".toList)) h2
    refine done (q := q) (r := none) (by simp only [Call.exec, Proof.deleteIds, e]; rfl)
      ⟨?_, Reads.cons (del_line h1 es) hr, rfl, ?_, fun _ => ?_, fun _ h => (by cases h), hs.opt, hs.default, Nat.le_of_eq hs.pv.symm⟩ (np rfl)
    · rw [o]; simp only [Proof.write, List.append_assoc]
    · rw [hi]; exact Nat.le_add_right _ _
    · rw [Ids.run_deletion, hi]; rfl
  | deleteConstr c =>
    refine done rfl (Does.line (i := .delSpec c) (l := "del".toList ++ ' ' :: ("spec".toList ++ ' ' :: (c.text ++ " ;".toList))) ?_ rfl rfl (by simp)) (np rfl)
    have hr := readCon_ok (c := c) hv []
    rw [List.append_nil] at hr
    refine .mk (kw := .del) (by decide) (Ws.sp (a := "spec".toList) (x := ["spec".toList]) ⟨by decide, by decide⟩ (.conSemi hv)) ?_
    show (match readCon c.words with | some (c, []) => some (Item.delSpec c) | _ => none) = _
    rw [hr]
  | deleteIdRange lo hi =>
    obtain ⟨h1, h2⟩ := hv
    obtain ⟨a, b⟩ := rangeLine_spec hp h1 h2 "del range ".toList
    refine ⟨?_, fun r q h => ?_⟩
    · rw [Call.Panics, ← a]
      show unit? (p.rangeLine _ lo hi) = none ↔ _
      cases p.rangeLine "del range ".toList lo hi <;> simp [unit?]
    · have h : unit? (p.rangeLine "del range ".toList lo hi) = some (r, q) := h
      cases e : p.rangeLine "del range ".toList lo hi with
      | none => rw [e] at h; cases h
      | some q' =>
        rw [e] at h
        injection h with h
        injection h with h3 h4
        subst h3 h4
        obtain ⟨va, vb⟩ := range_valid hp h1 h2
        have l := range_line (w1 := "del".toList) (w2 := "range".toList) (kw := .del) (i := Item.delRange) (by decide) ⟨by decide, by decide⟩
          (fun _ => rfl) va vb
        rw [b _ e]
        exact ⟨_, _, Does.line (c := .deleteIdRange lo hi) l ⟨_, _, rfl, between_iff h1 h2⟩ rfl (by simp)⟩
  | deleteCoreIds ids =>
    exact done rfl (Does.line (ids_line (w := "delc".toList) (kw := .delc) (by decide) (fun _ => rfl) hv) rfl rfl (by simp)) (np rfl)
  | deleteDerivedIds ids =>
    exact done rfl (Does.line (ids_line (w := "deld".toList) (kw := .deld) (by decide) (fun _ => rfl) hv) rfl rfl (by simp)) (np rfl)
  | updateObjective u =>
    have key : ∃ t, u.text short = some t ∧ ∃ is, Reads ("obju ".toList ++ t ++ ['\n']) is ∧ (Call.updateObjective u).Says p.nextId is ∧
        ((Call.updateObjective u).CountsIds → Ids.run ⟨p.nextId, []⟩ is = ⟨p.nextId, []⟩) := by
      have hk : IsKw "obju".toList .obju := by decide
      cases u with
      | new o gs =>
        obtain ⟨h1, h2⟩ := hv
        have h0 : o.offset = 0 := hc
        by_cases hg : gs = []
        · subst hg
          refine ⟨_, rfl, [.objNew o false], ?_, rfl, fun _ => rfl⟩
          have l : LineText ("obju".toList ++ ' ' :: ("new".toList ++ ' ' :: (o.text ++ " ;".toList))) (.objNew o false) := by
            refine .mk hk (Ws.sp (a := "new".toList) (x := ["new".toList]) ⟨by decide, by decide⟩ (.objSemi h1)) ?_
            show (match readObj (sumWords o.sum ++ [[';']]) with
              | some (o, []) => some (Item.objNew o false)
              | some (o, [b]) => if b = "begin".toList then some (.objNew o true) else none
              | _ => none) = _
            rw [readObj_ok h1 h0]
          refine reads_eq ((Reads.line l).append (Reads.silent (t := []) NL.nil rfl)) ?_ rfl
          simp only [List.append_assoc, List.cons_append, List.nil_append]
          rfl
        · obtain ⟨t, e, hr⟩ := goalLines_reads short 2 h2
          refine ⟨_, by simp only [ObjUpdate.text, if_neg hg, e]; rfl, .objNew o true :: (gs.flatMap Goal.items ++ [.endBlock]), ?_, ?_, fun h => absurd h hg⟩
          · have l : LineText ("obju".toList ++ ' ' :: ("new".toList ++ ' ' :: (o.text ++ " ; begin".toList))) (.objNew o true) := by
              refine .mk hk (Ws.sp (a := "new".toList) (x := ["new".toList]) ⟨by decide, by decide⟩ (.objBegin h1)) ?_
              show (match readObj (sumWords o.sum ++ [[';'], "begin".toList]) with
                | some (o, []) => some (Item.objNew o false)
                | some (o, [b]) => if b = "begin".toList then some (.objNew o true) else none
                | _ => none) = _
              rw [readObj_ok h1 h0]
              rfl
            refine reads_eq (.cons l (hr.append ((Reads.line (t := "end".toList) (i := .endBlock) ⟨by decide, by decide, by decide⟩).append
              (Reads.silent (t := []) NL.nil rfl)))) ?_ rfl
            simp only [List.append_assoc, List.cons_append, List.nil_append]
            rfl
          · show _ = Item.objNew o (decide (gs ≠ [])) :: subproofItems (gs.map .goal)
            rw [subproofItems, if_neg (by simpa using hg), flatMap_goal]
            simp [hg]
      | diff o =>
        have h0 : o.offset = 0 := hc
        have h1 : o.Valid := hv
        refine ⟨_, rfl, [.objDiff o], ?_, rfl, fun _ => rfl⟩
        have l : LineText ("obju".toList ++ ' ' :: ("diff".toList ++ ' ' :: (o.text ++ " ;".toList))) (.objDiff o) := by
          refine .mk hk (Ws.sp (a := "diff".toList) (x := ["diff".toList]) ⟨by decide, by decide⟩ (.objSemi h1)) ?_
          show (match readObj (sumWords o.sum ++ [[';']]) with | some (o, []) => some (Item.objDiff o) | _ => none) = _
          rw [readObj_ok h1 h0]
        refine reads_eq (Reads.line l) ?_ rfl
        simp only [List.append_assoc, List.cons_append]
        rfl
    obtain ⟨t, e, is, hr, hs, hi⟩ := key
    by_cases ho : p.optimization = true
    · exact done (r := none) (q := p.writeln ("obju ".toList ++ t)) (by simp only [Call.exec, Proof.updateObjective, if_pos ho, e]; rfl)
        ⟨rfl, hr, hs, Nat.le_refl _, hi, fun _ h => (by cases h), rfl, rfl, Nat.le_refl _⟩ (by show ¬ p.optimization = false; simp [ho])
    · have e2 : (Call.updateObjective u).exec short p = none := by simp only [Call.exec, Proof.updateObjective, if_neg ho]; rfl
      refine ⟨⟨fun _ => (by show p.optimization = false; simpa using ho), fun _ => e2⟩, fun r q h => ?_⟩
      rw [e2] at h; cases h
  | substitute subs => exact absurd hc id
  | redundant c subs es =>
    obtain ⟨h1, h2, h3⟩ := hv
    obtain ⟨q, t, e, o, hr, hi, hs⟩ := writeSubproof_spec short (p.write ("red ".toList ++ c.text ++ " ; ".toList ++ subsText subs)) h3
    have l := subs_line (w := "red".toList) (kw := .red) (i := Item.red) (by decide) (fun _ => rfl) h1 h2 es
    refine done (q := q.newId.2) (r := some q.newId.1) (by simp only [Call.exec, Proof.redundant, e]; rfl)
      ⟨?_, Reads.cons l hr, rfl, ?_, fun _ => ?_, fun _ h => (by injection h with h; subst h; rfl), hs.opt, hs.default, Nat.le_of_eq hs.pv.symm⟩ (np rfl)
    · show q.out = _
      rw [o]
      simp only [Proof.write, List.append_assoc, List.cons_append]
      rfl
    · show _ ≤ q.nextId + 1
      rw [hi]
      show p.nextId ≤ p.nextId + _ + 1
      omega
    · rw [Ids.run_strengthening _ (fun b => Item.red c subs b) es (fun _ => rfl) (fun _ => rfl)]
      show _ = Ids.mk (q.nextId + 1) []
      rw [hi]; rfl
  | dominated c subs es =>
    obtain ⟨h1, h2, h3⟩ := hv
    obtain ⟨q, t, e, o, hr, hi, hs⟩ := writeSubproof_spec short (p.write ("dom ".toList ++ c.text ++ " ; ".toList ++ subsText subs)) h3
    have l := subs_line (w := "dom".toList) (kw := .dom) (i := Item.dom) (by decide) (fun _ => rfl) h1 h2 es
    refine done (q := q.newId.2) (r := some q.newId.1) (by simp only [Call.exec, Proof.dominated, e]; rfl)
      ⟨?_, Reads.cons l hr, rfl, ?_, fun _ => ?_, fun _ h => (by injection h with h; subst h; rfl), hs.opt, hs.default, Nat.le_of_eq hs.pv.symm⟩ (np rfl)
    · show q.out = _
      rw [o]
      simp only [Proof.write, List.append_assoc, List.cons_append]
      rfl
    · show _ ≤ q.nextId + 1
      rw [hi]
      show p.nextId ≤ p.nextId + _ + 1
      omega
    · rw [Ids.run_strengthening _ (fun b => Item.dom c subs b) es (fun _ => rfl) (fun _ => rfl)]
      show _ = Ids.mk (q.nextId + 1) []
      rw [hi]; rfl
  | moveIdsToCore ids =>
    refine done rfl (Does.line (i := .coreId ids) (l := "core".toList ++ ' ' :: ("id".toList ++ ' ' :: idsText ids)) ?_ rfl rfl (by simp)) (np rfl)
    refine .mk (kw := .core) (by decide) (Ws.sp (a := "id".toList) (x := ["id".toList]) ⟨by decide, by decide⟩ (.ids ids)) ?_
    show (readAll readRef (ids.map CId.text)).map Item.coreId = _
    rw [readAll_refs hv]; rfl
  | moveRangeToCore lo hi =>
    obtain ⟨h1, h2⟩ := hv
    obtain ⟨a, b⟩ := rangeLine_spec hp h1 h2 "core range ".toList
    refine ⟨?_, fun r q h => ?_⟩
    · rw [Call.Panics, ← a]
      show unit? (p.rangeLine _ lo hi) = none ↔ _
      cases p.rangeLine "core range ".toList lo hi <;> simp [unit?]
    · have h : unit? (p.rangeLine "core range ".toList lo hi) = some (r, q) := h
      cases e : p.rangeLine "core range ".toList lo hi with
      | none => rw [e] at h; cases h
      | some q' =>
        rw [e] at h
        injection h with h
        injection h with h3 h4
        subst h3 h4
        obtain ⟨va, vb⟩ := range_valid hp h1 h2
        have l := range_line (w1 := "core".toList) (w2 := "range".toList) (kw := .core) (i := Item.coreRange) (by decide) ⟨by decide, by decide⟩
          (fun _ => rfl) va vb
        rw [b _ e]
        exact ⟨_, _, Does.line (c := .moveRangeToCore lo hi) l ⟨_, _, rfl, between_iff h1 h2⟩ rfl (by simp)⟩
  | solution lits =>
    exact done rfl (Does.line (lits_line (w := "sol".toList) (kw := .sol) (by decide) (fun _ => rfl) hv) rfl rfl (by simp)) (np rfl)
  | excludeSolution lits =>
    exact done rfl (Does.idLine (lits_line (w := "solx".toList) (kw := .solx) (by decide) (fun _ => rfl) hv) rfl rfl (by simp)) (np rfl)
  | improveSolution lits =>
    exact done rfl (Does.idLine (lits_line (w := "soli".toList) (kw := .soli) (by decide) (fun _ => rfl) hv) rfl rfl (by simp)) (np rfl)
  | output g => exact done rfl (Does.line (output_line g) rfl rfl (by simp)) (np rfl)
  | equals c id =>
    obtain ⟨l, e, h⟩ := conLine_spec (w := "e".toList) (kw := .e) (i := Item.equal) (by decide) (fun _ => rfl) hv.1 hv.2 p
    exact done (r := none) (q := p.writeln l) (congrArg (fun x => some (none, x)) e) (Does.line h rfl rfl (by simp)) (np rfl)
  | equalsAdd c id =>
    obtain ⟨l, e, h⟩ := conLine_spec (w := "ea".toList) (kw := .ea) (i := Item.equalAdd) (by decide) (fun _ => rfl) hv.1 hv.2 p
    exact done (congrArg (fun x : Proof => some (some x.newId.1, x.newId.2)) e) (Does.idLine h rfl rfl (by simp)) (np rfl)
  | objEquals o =>
    have h0 : o.offset = 0 := hc
    have h1 : o.Valid := hv
    have l : LineText ("eobj".toList ++ ' ' :: (o.text ++ " ;".toList)) (.objEq o) := by
      refine .mk (kw := .eobj) (by decide) (.objSemi h1) ?_
      show (match readObj (sumWords o.sum ++ [[';']]) with | some (o, []) => some (Item.objEq o) | _ => none) = _
      rw [readObj_ok h1 h0]
    by_cases ho : p.optimization = true
    · exact done (r := none) (q := p.writeln ("eobj".toList ++ ' ' :: (o.text ++ " ;".toList))) (by simp only [Call.exec, Proof.objEquals, if_pos ho]; rfl)
        (Does.line l rfl rfl (by simp)) (by show ¬ p.optimization = false; simp [ho])
    · have e2 : (Call.objEquals o).exec short p = none := by simp only [Call.exec, Proof.objEquals, if_neg ho]; rfl
      refine ⟨⟨fun _ => (by show p.optimization = false; simpa using ho), fun _ => e2⟩, fun r q h => ?_⟩
      rw [e2] at h; cases h
  | implied c id =>
    obtain ⟨l, e, h⟩ := conLine_spec (w := "i".toList) (kw := .i) (i := Item.implied) (by decide) (fun _ => rfl) hv.1 hv.2 p
    exact done (r := none) (q := p.writeln l) (congrArg (fun x => some (none, x)) e) (Does.line h rfl rfl (by simp)) (np rfl)
  | impliedAdd c id =>
    obtain ⟨l, e, h⟩ := conLine_spec (w := "ia".toList) (kw := .ia) (i := Item.impliedAdd) (by decide) (fun _ => rfl) hv.1 hv.2 p
    exact done (congrArg (fun x : Proof => some (some x.newId.1, x.newId.2)) e) (Does.idLine h rfl rfl (by simp)) (np rfl)
  | setLevel n =>
    exact done rfl (Does.line (num_line (w := "#".toList) (kw := .level) (by decide) (fun _ => rfl) n) rfl rfl (by simp)) (np rfl)
  | wipeLevel n =>
    exact done rfl (Does.line (num_line (w := "w".toList) (kw := .wipe) (by decide) (fun _ => rfl) n) rfl rfl (by simp)) (np rfl)
  | defineOrder o =>
    obtain ⟨t, e, hr⟩ := order_reads short hv
    exact done (r := none) (q := p.writeln t) (by simp only [Call.exec, Proof.defineOrder, e]; rfl)
      ⟨rfl, hr, rfl, Nat.le_refl _, fun _ => Ids.run_order _ o, fun _ h => (by cases h), rfl, rfl, Nat.le_refl _⟩ (np rfl)
  | loadOrder name vars =>
    obtain ⟨h1, h2⟩ := hv
    refine done rfl (Does.line (i := .loadOrder name vars) (l := "load_order".toList ++ ' ' :: (name ++ ' ' :: joinSp vars)) ?_ rfl rfl (by simp)) (np rfl)
    refine .mk (kw := .loadOrder) (by decide) ((Ws.word h1).sp (.names h2)) ?_
    show (readAll readName vars).map (fun vs => Item.loadOrder name vs) = _
    rw [readAll_names h2]; rfl
  | strengtheningToCore on =>
    exact done rfl (Does.line (i := .strengthening on) (by cases on <;> exact ⟨by decide, by decide, by decide⟩) rfl rfl (by simp)) (np rfl)

end ProofText
end RustSat
