import Verif.Lemmas.Referenced
import Verif.Props.Gte
/-
C81: several encodings that share a database.
-/
namespace RustSat
open TotDb Card

namespace SharedDemo

/-- Deciding whether an operation is allowed. -/
def allowedB {VM : Type} [ManageVars VM] (w : SharedWorld VM) : SharedOp VM → Bool
  | .litTree lits => lits.all fun l => decide (l.var < ManageVars.nUsed w.vm ∧ l.var ∉ w.own)
  | .weightedLitTree lits => lits.all fun x => decide (0 < x.2 ∧ x.1.var < ManageVars.nUsed w.vm ∧ x.1.var ∉ w.own)
  | .join trees => trees.all fun t => decide (t ∈ w.cards)
  | .totUb root _ | .totUbChange root _ | .totLb root _ | .totLbChange root _ | .totBoth root _ | .totReserve root =>
    w.cards.any fun x => decide (x.1 = root)
  | .gteUb con M _ | .gteUbChange con M _ => w.sums.any fun x => decide (x.1 = con) && x.2.all fun y => decide (y.2 ≤ M)
  | .gteReserve con => w.sums.any fun x => decide (x.1 = con)
  | .watchdog lits d => (lits.all fun x => decide (0 < x.2 ∧ x.1.var < ManageVars.nUsed w.vm ∧ x.1.var ∉ w.own)) && (decide (d ≤ 1) || isPow2 d) &&
    lits.any fun x => decide (d ≤ x.2)
  | .watchdogOf trees d => (trees.all fun t => decide (0 < t.2 ∧ t.1 ∈ w.cards)) && (decide (d ≤ 1) || isPow2 d) && trees.any fun t => decide (d ≤ t.2)
  | .dogUb s _ | .dogUbChange s _ | .dogReserve s => w.dogs.any fun x => decide (x.1 = s)
  | .useVars vm => decide (ManageVars.nUsed w.vm ≤ ManageVars.nUsed vm)
  | .resetVars vm => (w.ins.all fun l => decide (l.var < ManageVars.nUsed vm)) && w.tareVars.all fun v => decide (v < ManageVars.nUsed vm)

/-- Running a history; `none` if an operation panics or is not allowed. -/
def run {VM : Type} [ManageVars VM] (w : SharedWorld VM) : List (SharedOp VM) → Option (SharedWorld VM)
  | [] => some w
  | op :: ops => if allowedB w op then (w.step op).bind fun w => run w ops else none

theorem allowed_of {VM : Type} [ManageVars VM] {w : SharedWorld VM} {op : SharedOp VM} (h : allowedB w op = true) : w.allowed op := by
  have card : ∀ root, (w.cards.any fun x => decide (x.1 = root)) = true → w.isCard root := by
    intro root h
    obtain ⟨⟨x, lits⟩, hx, e⟩ := List.any_eq_true.1 h
    have : x = root := by simpa using e
    subst this
    exact ⟨lits, hx⟩
  have sum : ∀ con M, (w.sums.any fun x => decide (x.1 = con) && x.2.all fun y => decide (y.2 ≤ M)) = true → w.isSum con M := by
    intro con M h
    obtain ⟨⟨x, lits⟩, hx, e⟩ := List.any_eq_true.1 h
    rw [Bool.and_eq_true] at e
    have : x = con := by simpa using e.1
    subst this
    exact ⟨lits, hx, by simpa using e.2⟩
  have dog : ∀ s, (w.dogs.any fun x => decide (x.1 = s)) = true → w.isDog s := by
    intro s h
    obtain ⟨⟨x, lits⟩, hx, e⟩ := List.any_eq_true.1 h
    have : x = s := by simpa using e
    subst this
    exact ⟨lits, hx⟩
  cases op with
  | watchdog lits d =>
    simp only [allowedB, Bool.and_eq_true, Bool.or_eq_true, decide_eq_true_eq] at h
    obtain ⟨⟨h1, h2⟩, h3⟩ := h
    refine ⟨by simpa using h1, h2, by simpa using h3⟩
  | watchdogOf trees d =>
    simp only [allowedB, Bool.and_eq_true, Bool.or_eq_true, decide_eq_true_eq] at h
    obtain ⟨⟨h1, h2⟩, h3⟩ := h
    refine ⟨fun t ht => ?_, h2, ?_⟩
    · have := List.all_eq_true.1 h1 t ht
      simpa using this
    · obtain ⟨t, ht, e⟩ := List.any_eq_true.1 h3
      exact ⟨t, ht, by simpa using e⟩
  | dogUb s r => exact dog _ h
  | dogUbChange s r => exact dog _ h
  | dogReserve s => exact dog _ h
  | litTree lits => simpa [allowedB, SharedWorld.allowed] using h
  | weightedLitTree lits => simpa [allowedB, SharedWorld.allowed] using h
  | join trees => simpa [allowedB, SharedWorld.allowed] using h
  | totUb root r => exact card _ h
  | totUbChange root r => exact card _ h
  | totLb root r => exact card _ h
  | totLbChange root r => exact card _ h
  | totBoth root r => exact card _ h
  | totReserve root => exact card _ h
  | gteUb con M r => exact sum _ _ h
  | gteUbChange con M r => exact sum _ _ h
  | gteReserve con =>
    obtain ⟨⟨x, lits⟩, hx, e⟩ := List.any_eq_true.1 h
    have : x = con := by simpa using e
    subst this
    exact ⟨lits, hx⟩
  | useVars vm => simpa [allowedB, SharedWorld.allowed] using h
  | resetVars vm =>
    simp only [allowedB, Bool.and_eq_true, List.all_eq_true, decide_eq_true_eq] at h
    exact h

/-- The concrete histories used in examples lead to reachable states. -/
theorem run_reach {VM : Type} [ManageVars VM] (R : SharedOp VM → Prop) : ∀ (ops : List (SharedOp VM)) (w w' : SharedWorld VM), (∀ op ∈ ops, R op) →
    SharedWorld.Reach R w → run w ops = some w' → SharedWorld.Reach R w'
  | [], w, w', _, h, e => by cases e; exact h
  | op :: ops, w, w', hr, h, e => by
    rw [run] at e
    by_cases ha : allowedB w op = true
    · rw [if_pos ha] at e
      cases hs : w.step op with
      | none => rw [hs] at e; cases e
      | some w1 =>
        rw [hs, Option.bind_some] at e
        exact run_reach R ops w1 w' (fun op h => hr op (List.mem_cons_of_mem _ h)) (.step w w1 op h (hr op List.mem_cons_self) (allowed_of ha) hs) e
    · rw [if_neg ha] at e; cases e

theorem run_append {VM : Type} [ManageVars VM] : ∀ {a b : List (SharedOp VM)} {w w' : SharedWorld VM}, run w (a ++ b) = some w' →
    ∃ w1, run w a = some w1 ∧ run w1 b = some w'
  | [], b, w, w', e => ⟨w, rfl, e⟩
  | op :: a, b, w, w', e => by
    rw [List.cons_append, run] at e
    rw [run]
    by_cases ha : allowedB w op = true
    · rw [if_pos ha] at e ⊢
      cases hs : w.step op with
      | none => rw [hs] at e; cases e
      | some w1 =>
        rw [hs, Option.bind_some] at e
        rw [Option.bind_some]
        exact run_append e
    · rw [if_neg ha] at e; cases e

theorem run_cons {VM : Type} [ManageVars VM] {op : SharedOp VM} {ops : List (SharedOp VM)} {w w' : SharedWorld VM} (e : run w (op :: ops) = some w') :
    ∃ w1, w.allowed op ∧ w.step op = some w1 ∧ run w1 ops = some w' := by
  rw [run] at e
  by_cases ha : allowedB w op = true
  · rw [if_pos ha] at e
    cases hs : w.step op with
    | none => rw [hs] at e; cases e
    | some w1 => rw [hs, Option.bind_some] at e; exact ⟨w1, allowed_of ha, rfl, e⟩
  · rw [if_neg ha] at e; cases e

theorem run_some {VM α : Type} [ManageVars VM] {w : SharedWorld VM} {ops : List (SharedOp VM)} {f : SharedWorld VM → α} {x : α}
    (h : (run w ops).map f = some x) : ∃ w', run w ops = some w' ∧ f w' = x := by
  cases e : run w ops with
  | none => rw [e] at h; cases h
  | some w' => rw [e] at h; exact ⟨w', rfl, by simpa using h⟩

/-- The ghost state after a call. -/
theorem called_ghost {VM : Type} [ManageVars VM] {w w' : SharedWorld VM} {r : Option (St VM)} {ub lb : Nat → Nat → Prop}
    {wub : NodeCon → Nat → Nat → Prop} (e : w.called r ub lb wub = some w') : w'.ub = ub ∧ w'.lb = lb ∧ w'.wub = wub := by
  cases r with
  | none => cases e
  | some st => cases e; exact ⟨rfl, rfl, rfl⟩

/-- The bounds of watchdogs after a call. -/
theorem called_dub {VM : Type} [ManageVars VM] {w w' : SharedWorld VM} {r : Option (St VM)} {ub lb : Nat → Nat → Prop}
    {wub : NodeCon → Nat → Nat → Prop} (e : w.called r ub lb wub = some w') : w'.dub = w.dub ∧ w'.dogs = w.dogs := by
  cases r with
  | none => cases e
  | some st => cases e; exact ⟨rfl, rfl⟩

/-- Literals of six variables. -/
def start : SharedWorld BasicVM := SharedWorld.start ⟨6⟩

/-- Two trees that count literals and a third that counts the literals of both; a tree that adds up weights. -/
def trees : List (SharedOp BasicVM) :=
  [.litTree [Lit.pos 0, Lit.pos 1, Lit.negOf 2], .litTree [Lit.pos 3, Lit.pos 4],
   .join [(4, [Lit.pos 0, Lit.pos 1, Lit.negOf 2]), (7, [Lit.pos 3, Lit.pos 4])],
   .weightedLitTree [(Lit.pos 0, 2), (Lit.pos 4, 3), (Lit.pos 5, 3)]]

/-- The root of the weighted tree. -/
def con : NodeCon := ⟨11, 0, 1, 1, none⟩

/-- Bounds for all of them. -/
def bounds : List (SharedOp BasicVM) :=
  [.totUb 8 ⟨.incl 1, .incl 2⟩, .totBoth 4 ⟨.incl 1, .excl 3⟩, .gteUbChange con 3 ⟨.incl 3, .incl 5⟩]

/-- The demonstration without calls of `encode_lb`. -/
theorem bounds_noLb : ∀ op ∈ trees ++ bounds, ∀ root r, op ≠ .totLb root r := by
  intro op hop root r e
  subst e
  simp [trees, bounds] at hop

/-- Two trees that count literals, a watchdog for weighted literals, and one for the trees with weights. -/
def dogTrees : List (SharedOp BasicVM) :=
  [.litTree [Lit.pos 0, Lit.pos 1, Lit.negOf 2], .litTree [Lit.pos 3, Lit.pos 4], .watchdog [(Lit.pos 0, 1), (Lit.pos 1, 2), (Lit.pos 5, 3)] 1,
   .watchdogOf [((4, [Lit.pos 0, Lit.pos 1, Lit.negOf 2]), 3), ((7, [Lit.pos 3, Lit.pos 4]), 2)] 1]

/-- The first watchdog. -/
def dog1 : Dpw.Structure := ⟨[13, 11], [Lit.pos 6], 1⟩

/-- The second watchdog. -/
def dog2 : Dpw.Structure := ⟨[17, 15], [Lit.pos 7], 1⟩

/-- Bounds for both watchdogs and for a tree below the second. -/
def dogBounds : List (SharedOp BasicVM) := [.dogUb dog1 ⟨.incl 2, .incl 3⟩, .dogUbChange dog2 ⟨.incl 6, .incl 6⟩, .totBoth 4 ⟨.incl 1, .incl 2⟩]

/-- A watchdog for two weighted literals. -/
def two : List (SharedOp BasicVM) := [.watchdog [(Lit.pos 0, 1), (Lit.pos 1, 2)] 1]

/-- The watchdog for two weighted literals. -/
def dog : Dpw.Structure := ⟨[4, 3], [Lit.pos 6], 1⟩

end SharedDemo

variable {VM : Type} [ManageVars VM] [LawfulVM VM]

/-- No restriction of the history. -/
def anyShared (_ : SharedOp VM) : Prop := True

/-- The bounds of watchdogs. -/
def dogBound : SharedWorld.Bound → Option (Dpw.Structure × Nat)
  | .dog s b => some (s, b)
  | _ => none

theorem mem_dogBound {Bs : List SharedWorld.Bound} {x : Dpw.Structure × Nat} : x ∈ Bs.filterMap dogBound ↔ .dog x.1 x.2 ∈ Bs := by
  rw [List.mem_filterMap]
  constructor
  · rintro ⟨B, hB, e⟩
    cases B with
    | dog s b => cases e; exact hB
    | ub => cases e
    | lb => cases e
    | sum => cases e
  · exact fun h => ⟨_, h, rfl⟩

/-- **C81.** Full statement: in a database shared by several encodings, after every history of building trees and of calls on encodings, whenever
bounds of some of the encodings are enforced at the same time, every model of all clauses and assumptions respects all these bounds, and every
assignment that respects all of them becomes such a model by changing only variables that were handed out to the encodings. Proved for all upper
bounds of totalizers and generalized totalizers; for upper bounds of watchdogs that were covered by a call (see
`C81_violated_watchdog_not_encoded`), at most one for each watchdog (see `C81_violated_watchdog_two_bounds`); and for lower bounds that are not zero
(see `C81_violated_lb_zero`), if no watchdog with reduced precision was built. -/
theorem C81_bounds_partial (w : SharedWorld VM) (h : SharedWorld.Reach anyShared w) (Bs : List SharedWorld.Bound) (hp : ∀ B ∈ Bs, w.proper B)
    (hz : ∀ root b, .lb root b ∈ Bs → 0 < b ∧ ∀ x ∈ w.dogs, x.1.precDiv ≤ 1)
    (hd : ∀ s b, .dog s b ∈ Bs → w.covered (.dog s b) ∧ ∀ b', .dog s b' ∈ Bs → b' = b) (hA : ∀ B ∈ Bs, ∃ A, w.assumptions B = .ok A) :
    (∀ m, ClauseSet.sat m w.cls → (∀ B ∈ Bs, ∀ A, w.assumptions B = .ok A → cubeSat m A) → ∀ B ∈ Bs, w.meets m B) ∧
    (∀ a, (∀ B ∈ Bs, w.meets a B) → ∃ m, (∀ v, v ∉ w.own → m v = a v) ∧ ClauseSet.sat m w.cls ∧
      ∀ B ∈ Bs, ∀ A, w.assumptions B = .ok A → cubeSat m A) := by
  have hi := h.inv
  have hw := hi.core.wf
  refine ⟨fun m hm hc B hB => ?_, fun a ha => ?_⟩
  · obtain ⟨A, hA⟩ := hA B hB
    have hcube := hc B hB A hA
    cases B with
    | ub root b => exact fun lits hl => SharedWorld.tot_sound hw (hi.cards _ hl) hA hi.core.soundIf hm hcube
    | lb root b =>
      intro lits hl
      obtain ⟨hb, hprec⟩ := hz root b hB
      obtain ⟨b, rfl⟩ : ∃ k, b = k + 1 := ⟨b - 1, by omega⟩
      simp only [SharedWorld.assumptions] at hA
      rcases SharedWorld.enforceLb_cases hw (hi.cards _ hl) b with ⟨_, e⟩ | ⟨_, e, -⟩ | ⟨_, l, hl', e⟩
      · rw [e] at hA; cases hA
      · rw [e] at hA; cases hA
      · rw [e] at hA; cases hA
        have := hl'.onlyIf hw rfl (hi.core.soundOnly ((hi.real hprec).noDummy hw)) hm (hcube l (by simp))
        rw [(hi.cards _ hl).val, ← countTrue_eq_cnt] at this
        exact this
    | sum con M b =>
      intro lits hl
      obtain ⟨lits', hl', hM⟩ := hp _ hB
      have h1 := SharedWorld.gte_sound hw (hi.sums _ hl') hM hA hi.core.soundIf hm hcube
      rw [wsum_eq_wsumT, ← (hi.sums _ hl').val, (hi.sums _ hl).val, ← wsum_eq_wsumT] at h1
      exact h1
    | dog s b => exact fun lits hl => SharedWorld.dog_sound hw (hi.dogs _ hl) (h.availD s b (hd s b hB).1).2.2 hA hm hcube
  · obtain ⟨a', t1, t2⟩ := SharedWorld.choose_tares a (Bs.filterMap dogBound)
      (fun x hx => by
        obtain ⟨lits, hl⟩ := hp _ (mem_dogBound.1 hx)
        exact (hi.dogs _ hl).tares)
      (fun x hx y hy hne => by
        obtain ⟨lits, hl⟩ := hp _ (mem_dogBound.1 hx)
        obtain ⟨lits', hl'⟩ := hp _ (mem_dogBound.1 hy)
        exact hi.sep _ hl _ hl' hne)
      (fun x hx y hy e => by
        have h1 := mem_dogBound.1 hx
        have h2 := mem_dogBound.1 hy
        rw [← e] at h2
        exact ((hd _ _ h1).2 _ h2).symm)
    have hsub : ∀ x ∈ Bs.filterMap dogBound, ∀ v ∈ x.1.tares.map Lit.var, v ∈ w.tares.map Lit.var := by
      intro x hx v hv
      obtain ⟨lits, hl⟩ := hp _ (mem_dogBound.1 hx)
      obtain ⟨t, ht, rfl⟩ := List.mem_map.1 hv
      exact List.mem_map.2 ⟨t, SharedWorld.mem_tares.2 ⟨_, hl, ht⟩, rfl⟩
    obtain ⟨m, h1, h2, h3, h4'⟩ := hi.core.complete a'
    have h4 : ∀ l ∈ w.ins, l.holds m = l.holds a := fun l hl => (h4' l (List.mem_append_left _ hl)).trans
      (Lit.holds_congr (t1 _ fun x hx hv => hi.fresh l hl (hsub x hx _ hv)))
    have hout : ∀ v, v ∉ w.own → m v = a v := fun v hv => by
      have h5 : v ∉ w.tares.map Lit.var := fun ht => by
        obtain ⟨t, ht, e⟩ := List.mem_map.1 ht
        exact hv (e ▸ hi.tareOwn t ht)
      rw [h1 v fun ho => hv (SharedWorld.mem_out.1 ho).1, t1 v fun x hx hx' => h5 (hsub x hx v hx')]
    refine ⟨m, hout, h3, fun B hB A hA => ?_⟩
    have hmeet := ha B hB
    have hprop := hp B hB
    intro x hx
    cases B with
    | ub root b =>
      obtain ⟨lits, hl⟩ := hprop
      have hok : SharedWorld.CardOK w.db w.ins root lits := hi.cards _ hl
      simp only [SharedWorld.assumptions] at hA
      rcases SharedWorld.enforceUb_cases hw hok b with ⟨_, e⟩ | ⟨_, e, -⟩ | ⟨hb, l, hl', e⟩
      · rw [e] at hA; cases hA; cases hx
      · rw [e] at hA; cases hA
      · rw [e] at hA; cases hA
        rw [List.mem_singleton] at hx
        subst hx
        rw [Lit.holds_neg]
        cases hm : l.holds m with
        | false => rfl
        | true =>
          have := (hl'.strict hw h2).1 hm
          rw [hok.val, ← countTrue_eq_cnt, countTrue_eq_of_holds fun l hl => h4 l (hok.mem l hl)] at this
          have := hmeet lits hl
          omega
    | lb root b =>
      obtain ⟨lits, hl⟩ := hprop
      have hok : SharedWorld.CardOK w.db w.ins root lits := hi.cards _ hl
      have hb := (hz root b hB).1
      obtain ⟨b, rfl⟩ : ∃ k, b = k + 1 := ⟨b - 1, by omega⟩
      simp only [SharedWorld.assumptions] at hA
      rcases SharedWorld.enforceLb_cases hw hok b with ⟨_, e⟩ | ⟨_, e, -⟩ | ⟨_, l, hl', e⟩
      · rw [e] at hA; cases hA
      · rw [e] at hA; cases hA
      · rw [e] at hA; cases hA
        rw [List.mem_singleton] at hx
        subst hx
        refine (hl'.strict hw h2).2 ?_
        rw [hok.val, ← countTrue_eq_cnt, countTrue_eq_of_holds fun l hl => h4 l (hok.mem l hl)]
        exact hmeet lits hl
    | sum con M b =>
      obtain ⟨lits, hl, hM⟩ := hprop
      have hok : SharedWorld.SumOK w.db w.ins con lits := hi.sums _ hl
      have hsum : wsum m lits ≤ b := by
        rw [wsum_congr fun x hx => h4 x.1 (hok.mem x hx)]
        exact hmeet lits hl
      rw [wsum_eq_wsumT, ← hok.val] at hsum
      simp only [SharedWorld.assumptions] at hA
      rcases SharedWorld.gteEnforce_cases hw hok M b with ⟨_, e⟩ | ⟨_, e, -⟩ | ⟨_, A', e, -, hA'⟩
      · rw [e] at hA; cases hA; cases hx
      · rw [e] at hA; cases hA
      · rw [e] at hA; cases hA
        obtain ⟨v, l, hv, hl', rfl⟩ := hA' x hx
        rw [Lit.holds_neg]
        cases hh : l.holds m with
        | false => rfl
        | true =>
          have hle := (hl'.strict hw h2).1 hh
          have := con.map_mono hle
          simp only [conVal] at hsum
          omega
    | dog s b =>
      obtain ⟨lits, hl⟩ := hprop
      have hok : SharedWorld.DogOK w.db w.ins s lits := hi.dogs _ hl
      obtain ⟨g1, g2⟩ := t2 (s, b) (mem_dogBound.2 hB) m fun t ht => h4' t (List.mem_append_right _ (SharedWorld.mem_tares.2 ⟨_, hl, ht⟩))
      have hsum : wsum m (divided s.precDiv lits) ≤ b := by
        rw [wsum_congr fun x hx => ?_]
        · exact hmeet lits hl
        · obtain ⟨y, hy, rfl⟩ := List.mem_map.1 hx
          exact h4 y.1 (hok.mem y hy)
      rw [wsum_eq_wsumT] at hsum
      simp only [SharedWorld.assumptions] at hA
      rcases SharedWorld.dogEnforce_cases hok.unit b with ⟨_, e⟩ | ⟨_, e, -⟩ | ⟨_, l, hl', e⟩
      · rw [e] at hA; cases hA; cases hx
      · rw [e] at hA; cases hA
      · rw [e] at hA; cases hA
        rcases List.mem_cons.1 hx with rfl | hx
        · rw [Lit.holds_neg]
          cases hh : l.holds m with
          | false => rfl
          | true =>
            have hle := (hl'.strict hw h2).1 hh
            rw [hok.val, Nat.le_div_iff_mul_le (Nat.two_pow_pos _)] at hle
            have := (SharedWorld.tare_arith b s.tares.length).2.2
            simp only at g2
            omega
        · exact g1 x hx

/-- Non-vacuity: three encodings share the database of the demonstration, and bounds for all of them are enforced at once. -/
example : ((SharedDemo.run SharedDemo.start (SharedDemo.trees ++ SharedDemo.bounds)).map fun w =>
    [w.assumptions (.ub 8 2), w.assumptions (.lb 4 1), w.assumptions (.ub 4 2), w.assumptions (.sum SharedDemo.con 3 4), w.assumptions (.lb 7 1)]) =
    some [.ok [Lit.negOf 14], .ok [Lit.pos 7], .ok [Lit.negOf 13], .ok [Lit.negOf 15, Lit.negOf 17], .err .notEncoded] := by decide_cbv

/-- Non-vacuity: the history of the demonstration is allowed, and the bounds are covered by its calls. -/
example : ∃ w, SharedDemo.run SharedDemo.start (SharedDemo.trees ++ SharedDemo.bounds) = some w ∧
    SharedWorld.Reach anyShared w ∧ SharedWorld.Reach (fun op => ∀ root r, op ≠ .totLb root r) w ∧
    (∀ B ∈ [SharedWorld.Bound.ub 8 2, .lb 4 1, .sum SharedDemo.con 3 4], w.proper B ∧ w.covered B) := by
  obtain ⟨w, e, hf⟩ := SharedDemo.run_some (w := SharedDemo.start) (ops := SharedDemo.trees ++ SharedDemo.bounds) (f := fun w =>
    decide ((8, [Lit.pos 0, Lit.pos 1, Lit.negOf 2, Lit.pos 3, Lit.pos 4]) ∈ w.cards) && decide ((4, [Lit.pos 0, Lit.pos 1, Lit.negOf 2]) ∈ w.cards) &&
    decide ((SharedDemo.con, [(Lit.pos 0, 2), (Lit.pos 4, 3), (Lit.pos 5, 3)]) ∈ w.sums)) (x := true) (by decide_cbv)
  simp only [Bool.and_eq_true, decide_eq_true_eq] at hf
  refine ⟨w, e, SharedDemo.run_reach _ _ _ _ (fun _ _ => trivial) (.start _) e, SharedDemo.run_reach _ _ _ _ SharedDemo.bounds_noLb (.start _) e, ?_⟩
  obtain ⟨w1, -, e⟩ := SharedDemo.run_append e
  rw [SharedDemo.bounds] at e
  obtain ⟨w2, -, e2, e⟩ := SharedDemo.run_cons e
  obtain ⟨w3, -, e3, e⟩ := SharedDemo.run_cons e
  obtain ⟨w4, -, e4, e⟩ := SharedDemo.run_cons e
  cases e
  obtain ⟨u2, -, -⟩ := SharedDemo.called_ghost e2
  obtain ⟨u3, l3, -⟩ := SharedDemo.called_ghost e3
  obtain ⟨u4, l4, g4⟩ := SharedDemo.called_ghost e4
  intro B hB
  simp only [List.mem_cons, List.not_mem_nil, or_false] at hB
  rcases hB with rfl | rfl | rfl
  · refine ⟨⟨_, hf.1.1⟩, ?_⟩
    simp only [SharedWorld.covered]
    rw [u4, u3, u2]
    exact Or.inl (Or.inr ⟨rfl, by simp [URange.contains]⟩)
  · refine ⟨⟨_, hf.1.2⟩, ?_⟩
    simp only [SharedWorld.covered]
    rw [l4, l3]
    exact Or.inr ⟨rfl, by simp [URange.contains]⟩
  · refine ⟨⟨_, hf.2, by decide⟩, ?_⟩
    simp only [SharedWorld.covered]
    rw [g4]
    exact Or.inr ⟨rfl, rfl, by simp [URange.contains]⟩

/-- Non-vacuity: two watchdogs and the trees below one of them share a database; bounds for all of them are enforced at once. -/
example : ((SharedDemo.run SharedDemo.start (SharedDemo.dogTrees ++ SharedDemo.dogBounds)).map fun w =>
    [w.assumptions (.dog SharedDemo.dog1 2), w.assumptions (.dog SharedDemo.dog2 6), w.assumptions (.lb 4 1), w.assumptions (.dog SharedDemo.dog2 12)]) =
    some [.ok [⟨27⟩, ⟨12⟩], .ok [⟨53⟩, ⟨14⟩], .ok [⟨34⟩], .err .notEncoded] := by decide_cbv

/-- Non-vacuity: this history is allowed, and the bounds meet the hypotheses. -/
example : ∃ w, SharedDemo.run SharedDemo.start (SharedDemo.dogTrees ++ SharedDemo.dogBounds) = some w ∧ SharedWorld.Reach anyShared w ∧
    (∀ B ∈ [SharedWorld.Bound.dog SharedDemo.dog1 2, .dog SharedDemo.dog2 6, .lb 4 1], w.proper B ∧ w.covered B) ∧ ∀ x ∈ w.dogs, x.1.precDiv ≤ 1 := by
  obtain ⟨w, e, hf⟩ := SharedDemo.run_some (w := SharedDemo.start) (ops := SharedDemo.dogTrees ++ SharedDemo.dogBounds) (f := fun w =>
    decide ((4, [Lit.pos 0, Lit.pos 1, Lit.negOf 2]) ∈ w.cards) &&
    decide (w.dogs = [(SharedDemo.dog1, [(Lit.pos 0, 1), (Lit.pos 1, 2), (Lit.pos 5, 3)]),
      (SharedDemo.dog2, [(Lit.pos 0, 3), (Lit.pos 1, 3), (Lit.negOf 2, 3), (Lit.pos 3, 2), (Lit.pos 4, 2)])])) (x := true) (by decide_cbv)
  simp only [Bool.and_eq_true, decide_eq_true_eq] at hf
  refine ⟨w, e, SharedDemo.run_reach _ _ _ _ (fun _ _ => trivial) (.start _) e, ?_, ?_⟩
  · obtain ⟨w1, -, e⟩ := SharedDemo.run_append e
    rw [SharedDemo.dogBounds] at e
    obtain ⟨w2, -, e2, e⟩ := SharedDemo.run_cons e
    obtain ⟨w3, -, e3, e⟩ := SharedDemo.run_cons e
    obtain ⟨w4, -, e4, e⟩ := SharedDemo.run_cons e
    cases e
    have u2 := (SharedDemo.called_dub e2).1
    have u3 := (SharedDemo.called_dub e3).1
    have u4 := (SharedDemo.called_dub e4).1
    obtain ⟨-, l4, -⟩ := SharedDemo.called_ghost e4
    intro B hB
    simp only [List.mem_cons, List.not_mem_nil, or_false] at hB
    rcases hB with rfl | rfl | rfl
    · refine ⟨⟨_, by rw [hf.2]; exact List.mem_cons_self⟩, ?_⟩
      simp only [SharedWorld.covered]
      rw [u4, u3]
      refine Or.inl ?_
      rw [u2]
      exact Or.inr ⟨rfl, by simp [URange.contains]⟩
    · refine ⟨⟨_, by rw [hf.2]; exact List.mem_cons_of_mem _ List.mem_cons_self⟩, ?_⟩
      simp only [SharedWorld.covered]
      rw [u4, u3]
      exact Or.inr ⟨rfl, by simp [URange.contains]⟩
    · refine ⟨⟨_, hf.1⟩, ?_⟩
      simp only [SharedWorld.covered]
      rw [l4]
      exact Or.inr ⟨rfl, by simp [URange.contains]⟩
  · rw [hf.2]
    decide

/-- **C81.** Every allowed operation succeeds: nothing panics, and the result is reachable again. -/
theorem C81_no_panic (w : SharedWorld VM) (h : SharedWorld.Reach anyShared w) (op : SharedOp VM) (ha : w.allowed op) :
    ∃ w', w.step op = some w' ∧ SharedWorld.Reach anyShared w' := by
  obtain ⟨w', e, -⟩ := SharedWorld.step_spec w h.inv op ha
  exact ⟨w', e, .step w w' op h trivial ha e⟩

example : (SharedDemo.run SharedDemo.start (SharedDemo.trees ++ SharedDemo.bounds ++
    [.totReserve 8, .gteReserve SharedDemo.con, .totLb 7 ⟨.incl 1, .incl 2⟩, .totUb 7 ⟨.unbounded, .unbounded⟩])).isSome = true := by decide_cbv

theorem dog_available {R : SharedOp VM → Prop} {w : SharedWorld VM} (h : SharedWorld.Reach R w) {s : Dpw.Structure} {b : Nat} (hp : w.proper (.dog s b))
    (hc : w.covered (.dog s b)) : ∃ A, w.assumptions (.dog s b) = .ok A := by
  have hi := h.inv
  obtain ⟨lits, hl⟩ := hp
  simp only [SharedWorld.assumptions]
  have hg : (w.db.node s.root).isGeneral = false := (hi.dogs _ hl).unit
  rcases SharedWorld.dogEnforce_cases hg b with ⟨_, e⟩ | ⟨h1, e, hn⟩ | ⟨_, l, _, e⟩
  · exact ⟨_, e⟩
  · obtain ⟨l, h2, -⟩ := (h.availD s b hc).2.2.resolve_left (by omega)
    exact absurd ⟨l, h2⟩ hn
  · exact ⟨_, e⟩

/-- **C81.** Full statement: bounds that are covered by the calls so far can be enforced. Proved for lower bounds that are not zero after any
history, for upper bounds of watchdogs after any history, and for other upper bounds if the history contains no call of `encode_lb` (see
`C81_violated_lb_resets_ub`). Lower bounds above the number of literals are rejected as unsatisfiable. -/
theorem C81_available_partial (w : SharedWorld VM) (B : SharedWorld.Bound) (hp : w.proper B) (hc : w.covered B) :
    (∀ root b, B = .lb root b → 0 < b → SharedWorld.Reach anyShared w →
      (∃ A, w.assumptions B = .ok A) ∨ (w.assumptions B = .err .unsat ∧ ∀ a, ¬ w.meets a B)) ∧
    (∀ s b, B = .dog s b → SharedWorld.Reach anyShared w → ∃ A, w.assumptions B = .ok A) ∧
    ((∀ root b, B ≠ .lb root b) → SharedWorld.Reach (fun op => ∀ root r, op ≠ .totLb root r) w → ∃ A, w.assumptions B = .ok A) := by
  refine ⟨?_, by rintro s b rfl h; exact dog_available h hp hc, fun hno h => ?_⟩
  · rintro root b rfl hb h
    have hi := h.inv
    obtain ⟨lits, hl⟩ := hp
    obtain ⟨b, rfl⟩ : ∃ k, b = k + 1 := ⟨b - 1, by omega⟩
    simp only [SharedWorld.assumptions]
    rcases SharedWorld.enforceLb_cases (lits := lits) hi.core.wf (hi.cards _ hl) b with ⟨hb, e⟩ | ⟨hb, e, hn⟩ | ⟨_, l, _, e⟩
    · exact Or.inr ⟨e, fun a hm => by
        have h1 := hm lits hl
        have := countTrue_le_length a lits
        omega⟩
    · refine absurd ((h.availL root b hc).2 ?_) hn
      rw [(hi.cards _ hl).len hi.core.wf]
      exact hb
    · exact Or.inl ⟨_, e⟩
  · have hi := h.inv
    have hu := h.availU
    cases B with
    | lb root b => exact absurd rfl (hno root b)
    | ub root b =>
      obtain ⟨lits, hl⟩ := hp
      simp only [SharedWorld.assumptions]
      rcases SharedWorld.enforceUb_cases hi.core.wf (hi.cards _ hl) b with ⟨hb, e⟩ | ⟨hb, e, hn⟩ | ⟨_, l, _, e⟩
      · exact ⟨_, e⟩
      · refine absurd ((hu.1 root b hc).2 ?_) hn
        rw [(hi.cards _ hl).len hi.core.wf]
        exact hb
      · exact ⟨_, e⟩
    | sum con M b =>
      obtain ⟨lits, hl, -⟩ := hp
      simp only [SharedWorld.assumptions]
      rcases SharedWorld.gteEnforce_cases hi.core.wf (hi.sums _ hl) M b with ⟨_, e⟩ | ⟨_, e, hn⟩ | ⟨_, A, e, -⟩
      · exact ⟨_, e⟩
      · exact absurd (hu.2 con M b hc).2 hn
      · exact ⟨_, e⟩
    | dog s b => exact dog_available h hp hc

/-- **C81.** Directly after `encode_ub`, the clauses produced by this call alone suffice for all upper bounds that can be enforced: they can be
given to a new solver. For watchdogs, `enforce_ub` does not tell whether the bound was encoded: the clauses suffice for the bounds covered by the
call. -/
theorem C81_clauses_of_call (w w' : SharedWorld VM) (h : SharedWorld.Reach anyShared w) (op : SharedOp VM)
    (hop : (∃ root r, op = .totUb root r) ∨ (∃ con M r, op = .gteUb con M r) ∨ ∃ s r, op = .dogUb s r) (ha : w.allowed op) (hs : w.step op = some w')
    (B : SharedWorld.Bound) (hB : ∀ root b, B ≠ .lb root b) (hD : ∀ s b, B = .dog s b → ∃ r, op = .dogUb s r ∧ r.contains b)
    (hp : w'.proper B) (A : List Lit) (hA : w'.assumptions B = .ok A) (m : Asg)
    (hm : ClauseSet.sat m (w'.cls.drop w.cls.length)) (hc : cubeSat m A) : w'.meets m B := by
  have hi := h.inv
  obtain ⟨w2, e2, n⟩ := SharedWorld.step_spec w hi op ha
  rw [e2] at hs
  cases hs
  have hw' := n.inv.core.wf
  have key : SoundIf w'.db (w'.cls.drop w.cls.length) := by
    have fin : ∀ st : St VM, Step ⟨w.db.resetEncoded .if_, w.vm, w.cls⟩ st → SoundIf st.db (st.cls.drop w.cls.length) := by
      intro st hst
      obtain ⟨new, e, h1, -⟩ := hst.cls
      rw [e]
      simp only [List.drop_left]
      exact h1 [] (reset_soundIf w.db [])
    have keep1 := SharedWorld.keepReset w.db .if_
    have core1 := hi.core.reset .if_
    rcases hop with ⟨root, r, rfl⟩ | ⟨con, M, r, rfl⟩ | ⟨s, r, rfl⟩
    rotate_right
    · obtain ⟨lits, hc⟩ := ha
      obtain ⟨st, c, -⟩ := SharedWorld.dog_call keep1 core1 ((hi.dogs _ hc).rel keep1 hi.core.wf) r
      have e : RefDpw.encodeUb s r w.st = some st := c.eq
      simp only [SharedWorld.step, SharedWorld.called, e, Option.map_some, Option.some.injEq] at e2
      subst e2
      exact fin st c.step
    · obtain ⟨lits, hc⟩ := ha
      obtain ⟨st, c, -⟩ := SharedWorld.tot_ub_call keep1 core1 ((hi.cards _ hc).rel keep1 hi.core.wf) r
      have e : RefTot.encodeUb root r w.st = some st := c.eq
      simp only [SharedWorld.step, SharedWorld.called, e, Option.map_some, Option.some.injEq] at e2
      subst e2
      exact fin st c.step
    · obtain ⟨lits, hc, -⟩ := ha
      obtain ⟨st, c, -⟩ := SharedWorld.weighted_call keep1 core1 ((hi.sums _ hc).rel keep1 hi.core.wf) M r
      have e : RefGte.encodeUb con M r w.st = some st := c.eq
      simp only [SharedWorld.step, SharedWorld.called, e, Option.map_some, Option.some.injEq] at e2
      subst e2
      exact fin st c.step
  cases B with
  | lb root b => exact absurd rfl (hB root b)
  | ub root b => exact fun lits hl => SharedWorld.tot_sound hw' (n.inv.cards _ hl) hA key hm hc
  | sum con M b =>
    intro lits hl
    obtain ⟨lits', hl', hM⟩ := hp
    have h1 := SharedWorld.gte_sound hw' (n.inv.sums _ hl') hM hA key hm hc
    rw [wsum_eq_wsumT, ← (n.inv.sums _ hl').val, (n.inv.sums _ hl).val, ← wsum_eq_wsumT] at h1
    exact h1
  | dog s b =>
    intro lits hl
    obtain ⟨r, rfl, hb⟩ := hD s b rfl
    refine SharedWorld.dog_sound hw' (n.inv.dogs _ hl) (b := b) (C := w'.cls.drop w.cls.length) ?_ hA hm hc
    obtain ⟨lits, hc⟩ := ha
    obtain ⟨st, c, av⟩ := SharedWorld.dog_call (SharedWorld.keepReset w.db .if_) (hi.core.reset .if_)
      ((hi.dogs _ hc).rel (SharedWorld.keepReset w.db .if_) hi.core.wf) r
    have e : RefDpw.encodeUb s r w.st = some st := c.eq
    simp only [SharedWorld.step, SharedWorld.called, e, Option.map_some, Option.some.injEq] at e2
    subst e2
    refine (av b hb).imp id ?_
    rintro ⟨l, hl⟩
    exact Dpw.HasLit.good hw' hl key

/-- Non-vacuity: after bounds for all trees, a new solver is started with the bounds of one. -/
example : ((SharedDemo.run SharedDemo.start (SharedDemo.trees ++ SharedDemo.bounds)).bind fun w => (w.step (.totUb 7 ⟨.incl 1, .incl 1⟩)).map fun w' =>
    ((w'.cls.drop w.cls.length).length, w'.assumptions (.ub 7 1), w'.assumptions (.ub 8 1))) =
    some (1, .ok [Lit.negOf 11], .err .notEncoded) := by decide_cbv

/-- Non-vacuity: after bounds for all watchdogs, a new solver is started with the bounds of one. -/
example : ((SharedDemo.run SharedDemo.start (SharedDemo.dogTrees ++ SharedDemo.dogBounds)).bind fun w =>
    (w.step (.dogUb SharedDemo.dog1 ⟨.incl 1, .incl 1⟩)).map fun w' =>
    ((w'.cls.drop w.cls.length).length, w'.assumptions (.dog SharedDemo.dog1 1), w'.assumptions (.ub 4 1))) =
    some (9, .ok [⟨55⟩], .err .notEncoded) := by decide_cbv

/-- **C81.** The variables of all clauses are variables of the literals in the trees or were handed out to the encodings, never both. -/
theorem C81_vars (w : SharedWorld VM) (h : SharedWorld.Reach anyShared w) :
    (∀ c ∈ w.cls, ∀ l ∈ c, varsOf w.ins l.var ∨ l.var ∈ w.own) ∧ ∀ l ∈ w.ins, l.var ∉ w.own := by
  have hi := h.inv
  refine ⟨fun c hcl l hl => ?_, hi.insOwn⟩
  rcases hi.core.vars c hcl l hl with ⟨j, x, h1, h2⟩ | ⟨i, k, v, x, h1, h2⟩
  · rcases List.mem_append.1 (hi.core.leafIn j x h1) with h3 | h3
    · exact Or.inl ⟨x, h3, h2⟩
    · exact Or.inr (h2 ▸ hi.tareOwn x h3)
  · exact Or.inr (h2 ▸ (SharedWorld.mem_out.1 (hi.core.outOwn i k v x h1)).1)

/-- **C81.** `weight_sum` of a watchdog that references a database is at least the sum of the weights and above it by less than the weight of an
output; full statement: it is the sum of the weights (see `C81_violated_watchdog_weight_sum`). -/
theorem C81_watchdog_weight_sum_partial (w : SharedWorld VM) (h : SharedWorld.Reach anyShared w) (s : Dpw.Structure) (lits : List (Lit × Nat))
    (hs : (s, lits) ∈ w.dogs) :
    wsum (fun _ => true) (divided s.precDiv lits) ≤ RefDpw.weightSum w.db s ∧
    (∀ a, wsum a (divided s.precDiv lits) ≤ RefDpw.weightSum w.db s) ∧
    RefDpw.weightSum w.db s < ((divided s.precDiv lits).map (·.2)).sum + 2 ^ s.outputPower := by
  have hi := h.inv
  have hok : SharedWorld.DogOK w.db w.ins s lits := hi.dogs _ hs
  have hN := Nat.two_pow_pos s.tares.length
  have hv := hok.val fun _ => true
  rw [value_all hi.core.wf _ hok.unit, Dpw.tareVal_true] at hv
  have htot : wsumT (fun _ => true) (divided s.precDiv lits) = ((divided s.precDiv lits).map (·.2)).sum := by
    unfold wsumT
    simp
  have hmod := Nat.div_add_mod (wsumT (fun _ => true) (divided s.precDiv lits) + (2 ^ s.tares.length - 1)) (2 ^ s.tares.length)
  have hlt := Nat.mod_lt (wsumT (fun _ => true) (divided s.precDiv lits) + (2 ^ s.tares.length - 1)) hN
  rw [← hv, Nat.mul_comm] at hmod
  have hws : RefDpw.weightSum w.db s = (w.db.node s.root).len * 2 ^ s.tares.length := rfl
  have hall : ∀ a, wsum a (divided s.precDiv lits) ≤ RefDpw.weightSum w.db s := fun a => by
    rw [wsum_eq_wsumT]
    have := wsumT_le (trueLits a) (divided s.precDiv lits)
    omega
  refine ⟨hall _, hall, ?_⟩
  show RefDpw.weightSum w.db s < ((divided s.precDiv lits).map (·.2)).sum + 2 ^ s.tares.length
  omega

/-- **C81.** `coarse_ub` of a watchdog that references a database is at most the bound, and idempotent; full statement: the bound it gives is easy
to encode (see `C81_violated_watchdog_coarse`). -/
theorem C81_watchdog_coarse_partial (s : Dpw.Structure) (b : Nat) :
    RefDpw.coarseUb s b ≤ b ∧ b < RefDpw.coarseUb s b + 2 ^ s.outputPower ∧ RefDpw.coarseUb s (RefDpw.coarseUb s b) = RefDpw.coarseUb s b := by
  unfold RefDpw.coarseUb
  have hN := Nat.two_pow_pos s.outputPower
  have hmod := Nat.div_add_mod b (2 ^ s.outputPower)
  have hlt := Nat.mod_lt b hN
  rw [Nat.mul_comm] at hmod
  refine ⟨by omega, by omega, ?_⟩
  rw [Nat.mul_div_cancel _ hN]

/-- The attained value of the root of a weighted tree. -/
theorem sum_attained {w : SharedWorld VM} (h : SharedWorld.Reach anyShared w) {con : NodeCon} {lits : List (Lit × Nat)} (hr : (con, lits) ∈ w.sums)
    (a : Asg) : PlainCon w.db con ∧ w.db.WF ∧ ∃ u, wsum a lits = con.map u ∧ (u = 0 ∨ u ∈ (w.db.node con.id).valsFrom 1) := by
  have hi := h.inv
  refine ⟨(hi.sums _ hr).plain, hi.core.wf, value w.db (trueLits a) con.id, ?_, (att_value hi.core.wf (trueLits a) con.id).mem_vals hi.core.wf⟩
  rw [wsum_eq_wsumT, ← (hi.sums _ hr).val]
  rfl

/-- **C81.** No weighted sum lies strictly between `b` and `next_higher(b)`. -/
theorem C81_next_higher (w : SharedWorld VM) (h : SharedWorld.Reach anyShared w) (con : NodeCon) (lits : List (Lit × Nat)) (hr : (con, lits) ∈ w.sums)
    (b : Nat) : b < RefGte.nextHigher w.db con b ∧ ∀ a, b < wsum a lits → RefGte.nextHigher w.db con b ≤ wsum a lits := by
  unfold RefGte.nextHigher
  have hall := sum_attained h hr
  obtain ⟨hpc, hw, -⟩ := hall fun _ => true
  have hru := hpc.roundUp (b + 1)
  have h1 : 1 ≤ con.revMapRoundUp (b + 1) := by
    have := (hru 0).2 (by rw [NodeCon.map_zero]; omega)
    omega
  have hs := valsFrom_sorted hw con.id (con.revMapRoundUp (b + 1))
  have hm := fun v => valsFrom_shift (db := w.db) (id := con.id) (v := v) h1
  cases he : (w.db.node con.id).valsFrom (con.revMapRoundUp (b + 1)) with
  | nil =>
    simp only [List.head?_nil]
    exact ⟨by omega, fun a ha => ha⟩
  | cons v vs =>
    simp only [List.head?_cons]
    rw [he] at hs hm
    refine ⟨?_, fun a ha => ?_⟩
    · have h2 := ((hm v).1 (by simp)).2
      rcases Nat.lt_or_ge b (con.map v) with h' | h'
      · exact h'
      · have := (hru v).2 (by omega); omega
    · obtain ⟨-, -, u, e, h0⟩ := hall a
      rw [e] at ha ⊢
      rcases h0 with rfl | h0
      · rw [NodeCon.map_zero] at ha; omega
      · have hge : con.revMapRoundUp (b + 1) ≤ u := by
          rcases Nat.lt_or_ge u (con.revMapRoundUp (b + 1)) with h' | h'
          · have := (hru u).1 h'; omega
          · exact h'
        apply con.map_mono
        rcases List.mem_cons.1 ((hm u).2 ⟨h0, hge⟩) with rfl | hmem
        · exact Nat.le_refl _
        · exact Nat.le_of_lt (List.rel_of_pairwise_cons hs hmem)

/-- **C81.** No weighted sum lies strictly between `next_lower(b)` and a positive `b`. (For zero the subtraction overflows, see
`C81_violated_next_lower_zero`.) -/
theorem C81_next_lower_partial (w : SharedWorld VM) (h : SharedWorld.Reach anyShared w) (con : NodeCon) (lits : List (Lit × Nat))
    (hr : (con, lits) ∈ w.sums) (b : Nat) (hb : 0 < b) :
    ∃ v, RefGte.nextLower w.db con b = some v ∧ v < b ∧ ∀ a, wsum a lits < b → wsum a lits ≤ v := by
  unfold RefGte.nextLower
  have hall := sum_attained h hr
  obtain ⟨hpc, hw, -⟩ := hall fun _ => true
  have hru := hpc.roundUp b
  rw [hpc.offset]
  have hs := valsBelow_sorted hw con.id (con.revMapRoundUp b)
  have hm := fun v => mem_valsBelow hw (id := con.id) (hi := con.revMapRoundUp b) (v := v)
  cases he : ((w.db.node con.id).valsRange 0 (con.revMapRoundUp b)).getLast? with
  | none =>
    simp only
    rw [if_neg (by omega)]
    exact ⟨_, rfl, by omega, fun a ha => by omega⟩
  | some v =>
    obtain ⟨h1, h2⟩ := getLast_max hs he
    refine ⟨_, rfl, (hru v).1 ((hm v).1 h1).2, fun a ha => ?_⟩
    obtain ⟨-, -, u, e, hu⟩ := hall a
    rw [e] at ha ⊢
    rcases hu with rfl | hu
    · rw [NodeCon.map_zero]; exact Nat.zero_le _
    · exact con.map_mono (h2 u ((hm u).2 ⟨hu, (hru u).2 ha⟩))

example : ((SharedDemo.run SharedDemo.start SharedDemo.trees).map fun w => (w.sums.length,
    [RefGte.nextHigher w.db SharedDemo.con 0, RefGte.nextHigher w.db SharedDemo.con 3, RefGte.nextHigher w.db SharedDemo.con 8],
    [RefGte.nextLower w.db SharedDemo.con 2, RefGte.nextLower w.db SharedDemo.con 5, RefGte.nextLower w.db SharedDemo.con 20])) =
    some (1, [2, 5, 9], [some 1, some 3, some 8]) := by decide_cbv

/-! ### Violations -/

/-- **C81, violated.** After `encode_lb`, an upper bound that was encoded before, and that no call claims to forget, cannot be enforced: the
semantics that are reset are those of upper bounds. -/
theorem C81_violated_lb_resets_ub : ∃ w : SharedWorld BasicVM, SharedWorld.Reach anyShared w ∧ w.covered (.ub 4 1) ∧ w.proper (.ub 4 1) ∧
    w.assumptions (.ub 4 1) = .err .notEncoded := by
  obtain ⟨w, e, hf⟩ := SharedDemo.run_some (w := SharedDemo.start)
    (ops := SharedDemo.trees ++ [.totUb 4 ⟨.incl 1, .incl 1⟩, .totLb 4 ⟨.incl 2, .incl 2⟩]) (f := fun w =>
    decide ((4, [Lit.pos 0, Lit.pos 1, Lit.negOf 2]) ∈ w.cards) && decide (w.assumptions (.ub 4 1) = .err .notEncoded)) (x := true) (by decide_cbv)
  simp only [Bool.and_eq_true, decide_eq_true_eq] at hf
  refine ⟨w, SharedDemo.run_reach _ _ _ _ (fun _ _ => trivial) (.start _) e, ?_, ⟨_, hf.1⟩, hf.2⟩
  obtain ⟨w1, -, e⟩ := SharedDemo.run_append e
  obtain ⟨w2, -, e2, e⟩ := SharedDemo.run_cons e
  obtain ⟨w3, -, e3, e⟩ := SharedDemo.run_cons e
  cases e
  obtain ⟨u2, -, -⟩ := SharedDemo.called_ghost e2
  obtain ⟨u3, -, -⟩ := SharedDemo.called_ghost e3
  simp only [SharedWorld.covered]
  rw [u3, u2]
  exact Or.inr ⟨rfl, by simp [URange.contains]⟩

/-- **C81, violated.** A second `encode_lb` of the same bound, with a new collector, produces no clauses, although `enforce_lb` succeeds: the
clauses of the call alone do not enforce the bound. -/
theorem C81_violated_lb_clauses : ∃ (w w' : SharedWorld BasicVM) (r : URange) (A : List Lit) (m : Asg), SharedWorld.Reach anyShared w ∧
    w.allowed (.totLb 4 r) ∧ w.step (.totLb 4 r) = some w' ∧ w'.covered (.lb 4 2) ∧ w'.assumptions (.lb 4 2) = .ok A ∧
    ClauseSet.sat m (w'.cls.drop w.cls.length) ∧ cubeSat m A ∧ ¬ w'.meets m (.lb 4 2) := by
  obtain ⟨w', e, hf⟩ := SharedDemo.run_some (w := SharedDemo.start)
    (ops := (SharedDemo.trees ++ [.totLb 4 ⟨.incl 2, .incl 2⟩]) ++ [.totLb 4 ⟨.incl 2, .incl 2⟩]) (f := fun w =>
    decide ((4, [Lit.pos 0, Lit.pos 1, Lit.negOf 2]) ∈ w.cards) && decide (w.assumptions (.lb 4 2) = .ok [Lit.pos 8]) && decide (w.cls.length = 5))
    (x := true) (by decide_cbv)
  obtain ⟨w, e1, e⟩ := SharedDemo.run_append e
  obtain ⟨_, e1', hf1⟩ := SharedDemo.run_some (w := SharedDemo.start) (ops := SharedDemo.trees ++ [.totLb 4 ⟨.incl 2, .incl 2⟩])
    (f := fun w => decide (w.cls.length = 5)) (x := true) (by decide_cbv)
  rw [e1] at e1'
  cases e1'
  obtain ⟨_, ha, e2, e⟩ := SharedDemo.run_cons e
  cases e
  simp only [Bool.and_eq_true, decide_eq_true_eq] at hf hf1
  obtain ⟨-, l2, -⟩ := SharedDemo.called_ghost e2
  refine ⟨w, w', _, _, fun v => v == 8, SharedDemo.run_reach _ _ _ _ (fun _ _ => trivial) (.start _) e1, ha, e2, ?_, hf.1.2, ?_, ?_, fun hm => ?_⟩
  · simp only [SharedWorld.covered]
    rw [l2]
    exact Or.inr ⟨rfl, by simp [URange.contains]⟩
  · rw [hf1, ← hf.2, List.drop_length]
    simp [ClauseSet.sat]
  · intro l hl
    rw [List.mem_singleton] at hl
    subst hl
    rfl
  · exact absurd (hm _ hf.1.1) (by decide)

/-- **C81, violated.** Enforcing the lower bound zero panics, or, for a tree of one literal, assumes that the literal is true. -/
theorem C81_violated_lb_zero : ∃ w : SharedWorld BasicVM, SharedWorld.Reach anyShared w ∧ w.proper (.lb 4 0) ∧ w.assumptions (.lb 4 0) = .panic ∧
    w.proper (.lb 0 0) ∧ w.assumptions (.lb 0 0) = .ok [Lit.pos 0] := by
  obtain ⟨w, e, hf⟩ := SharedDemo.run_some (w := SharedDemo.start) (ops := SharedDemo.trees ++ [.litTree [Lit.pos 0]]) (f := fun w =>
    (decide ((4, [Lit.pos 0, Lit.pos 1, Lit.negOf 2]) ∈ w.cards) && decide (w.assumptions (.lb 4 0) = .panic)) &&
    (decide ((0, [Lit.pos 0]) ∈ w.cards) && decide (w.assumptions (.lb 0 0) = .ok [Lit.pos 0]))) (x := true) (by decide_cbv)
  simp only [Bool.and_eq_true, decide_eq_true_eq] at hf
  exact ⟨w, SharedDemo.run_reach _ _ _ _ (fun _ _ => trivial) (.start _) e, ⟨_, hf.1.1⟩, hf.1.2, ⟨_, hf.2.1⟩, hf.2.2⟩

/-- **C81, violated.** `next_lower(0)` overflows. -/
theorem C81_violated_next_lower_zero : ∃ (w : SharedWorld BasicVM) (lits : List (Lit × Nat)), SharedWorld.Reach anyShared w ∧
    (SharedDemo.con, lits) ∈ w.sums ∧ RefGte.nextLower w.db SharedDemo.con 0 = none := by
  obtain ⟨w, e, hf⟩ := SharedDemo.run_some (w := SharedDemo.start) (ops := SharedDemo.trees) (f := fun w =>
    decide ((SharedDemo.con, [(Lit.pos 0, 2), (Lit.pos 4, 3), (Lit.pos 5, 3)]) ∈ w.sums) && decide (RefGte.nextLower w.db SharedDemo.con 0 = none))
    (x := true) (by decide_cbv)
  simp only [Bool.and_eq_true, decide_eq_true_eq] at hf
  exact ⟨w, _, SharedDemo.run_reach _ _ _ _ (fun _ _ => trivial) (.start _) e, hf.1, hf.2⟩

/-! ### Violations: watchdogs -/

/-- **C81, violated.** `weight_sum` of a watchdog for the weights 1 and 2 that references its database is 4. -/
theorem C81_violated_watchdog_weight_sum : ∃ (w : SharedWorld BasicVM) (lits : List (Lit × Nat)), SharedWorld.Reach anyShared w ∧
    (SharedDemo.dog, lits) ∈ w.dogs ∧ SharedDemo.dog.precDiv = 1 ∧ (lits.map (·.2)).sum = 3 ∧ RefDpw.weightSum w.db SharedDemo.dog = 4 := by
  obtain ⟨w, e, hf⟩ := SharedDemo.run_some (w := SharedDemo.start) (ops := SharedDemo.two) (f := fun w =>
    decide ((SharedDemo.dog, [(Lit.pos 0, 1), (Lit.pos 1, 2)]) ∈ w.dogs) && decide (RefDpw.weightSum w.db SharedDemo.dog = 4)) (x := true) (by decide_cbv)
  simp only [Bool.and_eq_true, decide_eq_true_eq] at hf
  exact ⟨w, _, SharedDemo.run_reach _ _ _ _ (fun _ _ => trivial) (.start _) e, hf.1, rfl, rfl, hf.2⟩

/-- **C81, violated.** After reserving variables, without any call to encode, enforcing a bound of a watchdog succeeds, but the assumptions do not
enforce the bound. -/
theorem C81_violated_watchdog_not_encoded : ∃ (w : SharedWorld BasicVM) (A : List Lit) (m : Asg), SharedWorld.Reach anyShared w ∧
    w.proper (.dog SharedDemo.dog 1) ∧ w.assumptions (.dog SharedDemo.dog 1) = .ok A ∧ ClauseSet.sat m w.cls ∧ cubeSat m A ∧
    ¬ w.meets m (.dog SharedDemo.dog 1) := by
  obtain ⟨w, e, hf⟩ := SharedDemo.run_some (w := SharedDemo.start) (ops := SharedDemo.two ++ [.dogReserve SharedDemo.dog]) (f := fun w =>
    decide ((SharedDemo.dog, [(Lit.pos 0, 1), (Lit.pos 1, 2)]) ∈ w.dogs) && decide (w.cls = []) &&
    decide (w.assumptions (.dog SharedDemo.dog 1) = .ok [⟨17⟩])) (x := true) (by decide_cbv)
  simp only [Bool.and_eq_true, decide_eq_true_eq] at hf
  refine ⟨w, _, fun v => v < 2, SharedDemo.run_reach _ _ _ _ (fun _ _ => trivial) (.start _) e, ⟨_, hf.1.1⟩, hf.2, ?_, ?_, fun hm => ?_⟩
  · rw [hf.1.2]
    simp [ClauseSet.sat]
  · intro l hl
    rw [List.mem_singleton] at hl
    subst hl
    decide
  · exact absurd (hm _ hf.1.1) (by decide)

/-- **C81, violated.** Enforcing two bounds of the same watchdog at once excludes assignments that respect both. -/
theorem C81_violated_watchdog_two_bounds : ∃ (w : SharedWorld BasicVM) (A1 A2 : List Lit) (a : Asg), SharedWorld.Reach anyShared w ∧
    w.covered (.dog SharedDemo.dog 1) ∧ w.covered (.dog SharedDemo.dog 2) ∧ w.proper (.dog SharedDemo.dog 1) ∧
    w.assumptions (.dog SharedDemo.dog 1) = .ok A1 ∧ w.assumptions (.dog SharedDemo.dog 2) = .ok A2 ∧
    w.meets a (.dog SharedDemo.dog 1) ∧ w.meets a (.dog SharedDemo.dog 2) ∧
    ¬ ∃ m : Asg, (∀ v, v ∉ w.own → m v = a v) ∧ ClauseSet.sat m w.cls ∧ cubeSat m A1 ∧ cubeSat m A2 := by
  obtain ⟨w, e, hf⟩ := SharedDemo.run_some (w := SharedDemo.start) (ops := SharedDemo.two ++ [.dogUb SharedDemo.dog ⟨.incl 1, .incl 2⟩]) (f := fun w =>
    (decide (w.dogs = [(SharedDemo.dog, [(Lit.pos 0, 1), (Lit.pos 1, 2)])]) && decide (w.own = [6, 7, 8, 9])) &&
    (decide (w.assumptions (.dog SharedDemo.dog 1) = .ok [⟨17⟩]) && decide (w.assumptions (.dog SharedDemo.dog 2) = .ok [⟨19⟩, ⟨12⟩])) &&
    decide (w.cls = [[⟨1⟩, ⟨13⟩, ⟨14⟩], [⟨15⟩, ⟨16⟩], [⟨3⟩, ⟨16⟩], [⟨3⟩, ⟨15⟩, ⟨18⟩]])) (x := true) (by decide_cbv)
  simp only [Bool.and_eq_true, decide_eq_true_eq] at hf
  obtain ⟨⟨⟨f1, f2⟩, f3, f4⟩, f5⟩ := hf
  have hcov : w.dub SharedDemo.dog 1 ∧ w.dub SharedDemo.dog 2 := by
    obtain ⟨w1, -, e⟩ := SharedDemo.run_append e
    obtain ⟨w2, -, e2, e⟩ := SharedDemo.run_cons e
    cases e
    rw [(SharedDemo.called_dub e2).1]
    exact ⟨Or.inr ⟨rfl, by simp [URange.contains]⟩, Or.inr ⟨rfl, by simp [URange.contains]⟩⟩
  refine ⟨w, _, _, fun v => v == 0, SharedDemo.run_reach _ _ _ _ (fun _ _ => trivial) (.start _) e, hcov.1, hcov.2, ⟨_, by rw [f1]; exact List.mem_singleton.2 rfl⟩, f3, f4,
    fun lits hl => ?_, fun lits hl => ?_, ?_⟩
  · rw [f1, List.mem_singleton] at hl
    cases hl
    decide
  · rw [f1, List.mem_singleton] at hl
    cases hl
    decide
  · rintro ⟨m, h1, h2, h3, h4⟩
    rw [f5] at h2
    rw [f2] at h1
    have h0 := h1 0 (by decide)
    have k1 := h2 [⟨1⟩, ⟨13⟩, ⟨14⟩] (by simp)
    have k2 := h2 [⟨15⟩, ⟨16⟩] (by simp)
    have k3 := h3 ⟨17⟩ (by simp)
    have k4 := h4 ⟨12⟩ (by simp)
    simp [Clause.sat, Lit.holds, Lit.var, Lit.isNeg] at k1 k2 k3 k4 h0
    simp_all

/-- **C81, violated.** The bound 2 is already coarse for a watchdog whose outputs have weight 2, but it needs an assumption for the tare; the bound
1 does not. -/
theorem C81_violated_watchdog_coarse : ∃ (w : SharedWorld BasicVM) (A1 A2 : List Lit), SharedWorld.Reach anyShared w ∧ w.isDog SharedDemo.dog ∧
    RefDpw.coarseUb SharedDemo.dog 2 = 2 ∧ RefDpw.coarseUb SharedDemo.dog 1 = 0 ∧
    w.assumptions (.dog SharedDemo.dog 1) = .ok A1 ∧ A1.length = 1 ∧ w.assumptions (.dog SharedDemo.dog 2) = .ok A2 ∧ A2.length = 2 := by
  obtain ⟨w, e, hf⟩ := SharedDemo.run_some (w := SharedDemo.start) (ops := SharedDemo.two ++ [.dogUb SharedDemo.dog ⟨.incl 1, .incl 2⟩]) (f := fun w =>
    decide (w.dogs = [(SharedDemo.dog, [(Lit.pos 0, 1), (Lit.pos 1, 2)])]) &&
    (decide (w.assumptions (.dog SharedDemo.dog 1) = .ok [⟨17⟩]) && decide (w.assumptions (.dog SharedDemo.dog 2) = .ok [⟨19⟩, ⟨12⟩]))) (x := true) (by decide_cbv)
  simp only [Bool.and_eq_true, decide_eq_true_eq] at hf
  exact ⟨w, _, _, SharedDemo.run_reach _ _ _ _ (fun _ _ => trivial) (.start _) e, ⟨_, by rw [hf.1]; exact List.mem_singleton.2 rfl⟩, by decide, by decide, hf.2.1, rfl, hf.2.2, rfl⟩

end RustSat
