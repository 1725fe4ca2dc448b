import Verif.Lemmas.Totalizer2
import Verif.Lemmas.Gte
import Verif.Spec.Bound
import Verif.Lemmas.VarManager
/-
The totalizer and the generalized totalizer satisfy the laws of encodings.
-/
namespace RustSat
open TotDb Card

namespace Item
variable {ι : Type} [Item ι]

theorem value_append (a : Asg) (x y : List ι) : value a (x ++ y) = value a x + value a y := by
  unfold value; rw [List.map_append, List.sum_append]

theorem total_append (x y : List ι) : total (x ++ y) = total x + total y := by
  unfold total; rw [List.map_append, List.sum_append]

theorem value_cons (a : Asg) (x : ι) (l : List ι) :
    value a (x :: l) = (if (lit x).holds a then weight x else 0) + value a l := by
  unfold value; rw [List.map_cons, List.sum_cons]

theorem total_cons (x : ι) (l : List ι) : total (x :: l) = weight x + total l := by
  unfold total; rw [List.map_cons, List.sum_cons]

theorem value_le (a : Asg) (l : List ι) : value a l ≤ total l := by
  induction l with
  | nil => exact Nat.le_refl _
  | cons x l ih =>
    rw [value_cons, total_cons]
    by_cases h : (lit x).holds a = true
    · rw [if_pos h]; omega
    · rw [if_neg h]; omega

theorem value_lit (a : Asg) (l : List Lit) : value a l = countTrue a l := by
  induction l with
  | nil => rfl
  | cons x l ih => rw [value_cons, ih]; rfl

theorem value_weighted (a : Asg) (l : List (Lit × Nat)) : value a l = wsum a l := by
  induction l with
  | nil => rfl
  | cons x l ih => rw [value_cons, ih]; rfl

theorem total_lit (l : List Lit) : total l = l.length := by
  induction l with
  | nil => rfl
  | cons x l ih => rw [total_cons, ih, List.length_cons]; show 1 + _ = _; omega

theorem total_weighted (l : List (Lit × Nat)) : total l = wsumT (fun _ => true) l := by
  rw [wsumT_true]; rfl

theorem value_congr {a b : Asg} {l : List ι} (h : ∀ x ∈ l, a (lit x).var = b (lit x).var) : value a l = value b l := by
  induction l with
  | nil => rfl
  | cons x l ih =>
    rw [value_cons, value_cons, ih fun y hy => h y (List.mem_cons_of_mem _ hy),
      Lit.holds_congr (h x (List.mem_cons_self ..))]

end Item

instance : LawfulItem Lit where
  distinct _ := True
  lit_neg _ := rfl
  weight_neg _ := rfl
  collect _ _ := rfl
  distinct_neg _ _ := trivial

instance : LawfulItem (Lit × Nat) where
  distinct l := (l.map (·.1)).Nodup
  lit_neg _ := rfl
  weight_neg _ := rfl
  collect l h := LitMap.ofList_nodup l h
  distinct_neg l h := by
    have : ((l.map Item.neg).map fun x => x.1) = (l.map (·.1)).map Lit.neg := by
      rw [List.map_map, List.map_map]; rfl
    rw [this]
    exact List.Pairwise.map _ (fun a b hab he => hab (by rw [← Lit.neg_neg a, he, Lit.neg_neg])) h

theorem TotDb.HasLit.vars {db : Db} {n : Nat} {cls : ClauseSet} {ins : List Lit} {own : List Nat} (h : Core db n cls ins own)
    {id k : Nat} {sem : Semantics} {l : Lit} (hl : HasLit db id k sem l) : l ∈ ins ∨ l.var ∈ own := by
  rcases hl with ⟨h1, -⟩ | ⟨s, -, h1, -⟩
  · exact Or.inl (h.leafIn _ _ h1)
  · exact Or.inr (h.outOwn _ _ _ _ ⟨_, h1⟩)

theorem TotDb.HasVal.vars {db : Db} {n : Nat} {cls : ClauseSet} {ins : List Lit} {own : List Nat} (h : Core db n cls ins own)
    {id v : Nat} {l : Lit} (hl : HasVal db id v l) : l ∈ ins ∨ l.var ∈ own := by
  rcases hl with ⟨h1, -⟩ | ⟨k, s, h1, -⟩
  · exact Or.inl (h.leafIn _ _ h1)
  · exact Or.inr (h.outOwn _ _ _ _ ⟨_, h1⟩)

theorem TotDb.Core.clauseVars {db : Db} {n : Nat} {cls : ClauseSet} {ins : List Lit} {own : List Nat} (h : Core db n cls ins own) :
    ∀ c ∈ cls, ∀ l ∈ c, (∃ x ∈ ins, x.var = l.var) ∨ l.var ∈ own := by
  intro c hc l hl
  rcases h.vars c hc l hl with ⟨j, l', h1, h2⟩ | ⟨i, k, v, l', h1, h2⟩
  · exact Or.inl ⟨l', h.leafIn _ _ h1, h2⟩
  · exact Or.inr (by rw [← h2]; exact h.outOwn _ _ _ _ h1)

/-! ### The totalizer -/

namespace Totalizer
namespace Inv
variable {t : Totalizer} {n : Nat} {cls : ClauseSet} {ins : List Lit} {own : List Nat}

theorem extend (h : t.Inv n cls ins own) (lits : List Lit) (hl : ∀ l ∈ lits, l.var < n ∧ l.var ∉ own) :
    (t.extend lits).Inv n cls (ins ++ lits) own := by
  refine ⟨h.core.add lits hl, h.real, h.off, h.add, h.root, fun T => ?_, fun l hl => ?_, h.empty⟩
  · have := h.val T
    simp only [Totalizer.extend, cnt_append]
    unfold Totalizer.rootVal at this ⊢
    simp only
    omega
  · rcases List.mem_append.1 hl with h' | h'
    · exact List.mem_append_left _ (h.buf l h')
    · exact List.mem_append_right _ h'

/-- In strict models within the bound the assumptions hold. -/
theorem ub_strict (h : t.Inv n cls ins own) {b : Nat} {A : List Lit} (hA : t.enforceUb b = .ok A) {m : Asg}
    (hs : Strict t.db m) (hb : countTrue m ins ≤ b) : cubeSat m A := by
  intro x hx
  rcases h.enforceUb_cases b with ⟨_, e⟩ | ⟨_, e, -⟩ | ⟨_, hbuf, id, l, hr, hl, e⟩
  · rw [e] at hA; cases hA; cases hx
  · rw [e] at hA; cases hA
  · rw [e] at hA; cases hA
    simp only [List.mem_cons, List.not_mem_nil, or_false] at hx
    subst hx
    rw [Lit.holds_neg]
    cases hm : l.holds m with
    | false => rfl
    | true =>
      have := (hl.strict h.core.wf hs).1 hm
      rw [h.rootValue hbuf hr, ← countTrue_eq_cnt] at this
      omega

theorem lb_strict (h : t.Inv n cls ins own) {b : Nat} {A : List Lit} (hA : t.enforceLb b = .ok A) {m : Asg}
    (hs : Strict t.db m) (hb : b ≤ countTrue m ins) : cubeSat m A := by
  intro x hx
  rcases h.enforceLb_cases b with ⟨_, e⟩ | ⟨_, e⟩ | ⟨_, _, e, -⟩ | ⟨hb', hle, hbuf, id, l, hr, hl, e⟩
  · rw [e] at hA; cases hA; cases hx
  · rw [e] at hA; cases hA
  · rw [e] at hA; cases hA
  · rw [e] at hA; cases hA
    simp only [List.mem_cons, List.not_mem_nil, or_false] at hx
    subst hx
    refine (hl.strict h.core.wf hs).2 ?_
    rw [h.rootValue hbuf hr, ← countTrue_eq_cnt]
    omega

theorem ub_sound (h : t.Inv n cls ins own) {b : Nat} {A : List Lit} (hA : t.enforceUb b = .ok A) {m : Asg}
    (hm : ClauseSet.sat m cls) (hc : cubeSat m A) : countTrue m ins ≤ b := by
  rcases h.enforceUb_cases b with ⟨hb, e⟩ | ⟨_, e, -⟩ | ⟨hb, hbuf, id, l, hr, hl, e⟩
  · exact Nat.le_trans (countTrue_le_length _ _) hb
  · rw [e] at hA; cases hA
  · rw [e] at hA; cases hA
    rcases Nat.lt_or_ge b (countTrue m ins) with hlt | hge
    · exfalso
      rw [countTrue_eq_cnt, ← h.rootValue hbuf hr] at hlt
      have := hl.if_ h.core.wf rfl h.core.soundIf hm (T := trueLits m) (fun x hx => hx) hlt
      have hc' : l.neg.holds m = true := hc _ (by simp)
      rw [Lit.holds_neg, this] at hc'
      cases hc'
    · exact hge

theorem lb_sound (h : t.Inv n cls ins own) {b : Nat} {A : List Lit} (hA : t.enforceLb b = .ok A) {m : Asg}
    (hm : ClauseSet.sat m cls) (hc : cubeSat m A) : b ≤ countTrue m ins := by
  rcases h.enforceLb_cases b with ⟨hb, e⟩ | ⟨_, e⟩ | ⟨_, _, e, -⟩ | ⟨hb, hle, hbuf, id, l, hr, hl, e⟩
  · omega
  · rw [e] at hA; cases hA
  · rw [e] at hA; cases hA
  · rw [e] at hA; cases hA
    have := hl.onlyIf h.core.wf rfl (h.core.soundOnly (h.real.noDummy h.core.wf)) hm (hc l (by simp))
    rw [h.rootValue hbuf hr, ← countTrue_eq_cnt] at this
    omega

theorem ub_vars (h : t.Inv n cls ins own) {b : Nat} {A : List Lit} (hA : t.enforceUb b = .ok A) :
    ∀ l ∈ A, Item.vars ins l.var ∨ l.var ∈ own := by
  intro x hx
  rcases h.enforceUb_cases b with ⟨hb, e⟩ | ⟨_, e, -⟩ | ⟨hb, hbuf, id, l, hr, hl, e⟩
  · rw [e] at hA; cases hA; cases hx
  · rw [e] at hA; cases hA
  · rw [e] at hA; cases hA
    simp only [List.mem_cons, List.not_mem_nil, or_false] at hx
    subst hx
    rw [Lit.var_neg]
    exact (hl.vars h.core).imp (fun hi => ⟨l, hi, rfl⟩) fun h => h

theorem lb_vars (h : t.Inv n cls ins own) {b : Nat} {A : List Lit} (hA : t.enforceLb b = .ok A) :
    ∀ l ∈ A, Item.vars ins l.var ∨ l.var ∈ own := by
  intro x hx
  rcases h.enforceLb_cases b with ⟨hb, e⟩ | ⟨_, e⟩ | ⟨_, _, e, -⟩ | ⟨hb, hle, hbuf, id, l, hr, hl, e⟩
  · rw [e] at hA; cases hA; cases hx
  · rw [e] at hA; cases hA
  · rw [e] at hA; cases hA
  · rw [e] at hA; cases hA
    simp only [List.mem_cons, List.not_mem_nil, or_false] at hx
    subst hx
    exact (hl.vars h.core).imp (fun hi => ⟨x, hi, rfl⟩) fun h => h

theorem ub_ok (h : t.Inv n cls ins own) {b : Nat} (he : b < ins.length → t.EncUb b) : ∃ A, t.enforceUb b = .ok A := by
  rcases h.enforceUb_cases b with ⟨hb, e⟩ | ⟨hb, e, hn⟩ | ⟨hb, hbuf, id, l, hr, hl, e⟩
  · exact ⟨_, e⟩
  · exact absurd (he hb) hn
  · exact ⟨_, e⟩

theorem lb_ok (h : t.Inv n cls ins own) {b : Nat} (hle : b ≤ ins.length) (he : 0 < b → t.EncLb (b - 1)) :
    ∃ A, t.enforceLb b = .ok A := by
  rcases h.enforceLb_cases b with ⟨hb, e⟩ | ⟨hb, e⟩ | ⟨hb, _, e, hn⟩ | ⟨hb, hle, hbuf, id, l, hr, hl, e⟩
  · exact ⟨_, e⟩
  · omega
  · exact absurd (he hb) hn
  · exact ⟨_, e⟩

end Inv
end Totalizer

section
variable {VM : Type} [ManageVars VM] [LawfulVM VM]

instance : LawfulEnc Totalizer Lit VM where
  Inv := Totalizer.Inv
  same e e' := e = e'
  new ins n _ h := (CardWorld.start_inv ins (⟨n⟩ : BasicVM) fun l hl => (h l hl).2).tot
  extend e n cls ins own lits h _ hl := h.extend lits fun l hm => (hl l hm).2
  reserve e vm cls ins own h := by
    obtain ⟨t', vm', e, h1, -, h3, -⟩ := h.reserve
    exact ⟨t', vm', e, h3, h1⟩
  same_inv e e' n cls ins own h hs := hs ▸ h
  more e n n' cls ins own h hn := { h with core := h.core.more hn }
  weightSum e n cls ins own h := by rw [Item.total_lit]; exact h.nLits
  ownLt e n cls ins own h := h.core.ownLt
  disj e n cls ins own h v hv := by
    rintro ⟨l, hl, rfl⟩
    exact h.core.disj l hl hv
  vars e n cls ins own h := h.core.clauseVars
  free e n cls ins own h a := by
    obtain ⟨m, h1, -, h3, -⟩ := h.core.complete a
    exact ⟨m, h1, h3⟩

instance : LawfulUb Totalizer Lit VM where
  ubOk _ _ := True
  encodeUb e r vm cls ins own h _ col := by
    obtain ⟨t', vm', new, e, h1, h2, -⟩ := Totalizer.Inv.encodeUb h col r
    exact ⟨t', vm', new, e, h1.used, h1.inv, fun b hb => h1.inv.ub_ok (h2 b hb)⟩
  encodeUbChange e r vm cls ins own h _ col := by
    obtain ⟨t', vm', new, e, h1, h2, -⟩ := Totalizer.Inv.encodeUbChange h col r
    exact ⟨t', vm', new, e, h1.used, h1.inv, fun b hb => h1.inv.ub_ok (h2 b hb)⟩
  ub_total e n cls ins own b h := by
    rcases Totalizer.Inv.enforceUb_cases h b with ⟨hb, e⟩ | ⟨hb, e, hn⟩ | ⟨hb, hbuf, id, l, hr, hl, e⟩
    · exact Or.inl ⟨_, e⟩
    · exact Or.inr e
    · exact Or.inl ⟨_, e⟩
  ub_max e n cls ins own b h hb := h.ub_ok fun hl => by
    rw [Item.total_lit] at hb
    omega
  enforceUb e n cls ins own b A h hA := by
    refine ⟨fun m hm hc => ?_, fun a ha => ?_, h.ub_vars hA⟩
    · rw [Item.value_lit]; exact h.ub_sound hA hm hc
    · rw [Item.value_lit] at ha
      obtain ⟨m, h1, h2, h3, h4⟩ := h.core.complete a
      exact ⟨m, h1, h3, h.ub_strict hA h2 (by rw [countTrue_eq_of_holds h4]; exact ha)⟩

instance : LawfulLb Totalizer Lit VM where
  lbOk _ _ := True
  encodeLb e r vm cls ins own h _ col := by
    obtain ⟨t', vm', new, e, h1, h2, -⟩ := Totalizer.Inv.encodeLb h col r
    refine ⟨t', vm', new, e, h1.used, h1.inv, fun b hb hle => ?_⟩
    rw [Item.total_lit] at hle
    exact h1.inv.lb_ok hle fun h0 => h2 (b - 1) (by rw [Nat.sub_add_cancel h0]; exact hb) (by omega)
  encodeLbChange e r vm cls ins own h _ col := by
    obtain ⟨t', vm', new, e, h1, h2, -⟩ := Totalizer.Inv.encodeLbChange h col r
    refine ⟨t', vm', new, e, h1.used, h1.inv, fun b hb hle => ?_⟩
    rw [Item.total_lit] at hle
    exact h1.inv.lb_ok hle fun h0 => h2 (b - 1) (by rw [Nat.sub_add_cancel h0]; exact hb) (by omega)
  lb_total e n cls ins own b h := by
    rw [Item.total_lit]
    rcases Totalizer.Inv.enforceLb_cases h b with ⟨hb, e⟩ | ⟨hb, e⟩ | ⟨_, hb, e, hn⟩ | ⟨_, hb, hbuf, id, l, hr, hl, e⟩
    · exact Or.inr ⟨by omega, Or.inl ⟨_, e⟩⟩
    · exact Or.inl ⟨hb, e⟩
    · exact Or.inr ⟨hb, Or.inr e⟩
    · exact Or.inr ⟨hb, Or.inl ⟨_, e⟩⟩
  enforceLb e n cls ins own b A h hA := by
    refine ⟨fun m hm hc => ?_, fun a ha => ?_, h.lb_vars hA⟩
    · rw [Item.value_lit]; exact h.lb_sound hA hm hc
    · rw [Item.value_lit] at ha
      obtain ⟨m, h1, h2, h3, h4⟩ := h.core.complete a
      exact ⟨m, h1, h3, h.lb_strict hA h2 (by rw [countTrue_eq_of_holds h4]; exact ha)⟩

theorem enforceBoth_ok {u l : Res EnforceError (List Lit)} {A : List Lit} (h : enforceBoth u l = .ok A) :
    ∃ A1 A2, u = .ok A1 ∧ l = .ok A2 ∧ A = A1 ++ A2 := by
  unfold enforceBoth at h
  cases u with
  | ok a =>
    cases l with
    | ok a' => cases h; exact ⟨_, _, rfl, rfl, rfl⟩
    | err e => cases h
    | panic => cases h
  | err e => cases h
  | panic => cases h

instance : LawfulBoth Totalizer Lit VM where
  bothOk _ _ := True
  encodeBoth e r vm cls ins own h _ col := by
    obtain ⟨t', vm', new, e, h1, h2, h3, -⟩ := Totalizer.Inv.encodeBoth h col r
    refine ⟨t', vm', new, e, h1.used, h1.inv, fun b hb hle => ?_⟩
    rw [Item.total_lit] at hle
    obtain ⟨A1, e1⟩ := h1.inv.ub_ok (h2 b hb)
    obtain ⟨A2, e2⟩ := h1.inv.lb_ok hle fun h0 => h3 (b - 1) (by rw [Nat.sub_add_cancel h0]; exact hb) (by omega)
    exact ⟨A1 ++ A2, by show t'.enforceEq b = _; unfold Totalizer.enforceEq; rw [e1, e2]⟩
  encodeBothChange e r vm cls ins own h _ col := by
    obtain ⟨t', vm', new, e, h1, h2, h3, -⟩ := Totalizer.Inv.encodeBoth h col r
    refine ⟨t', vm', new, e, h1.used, h1.inv, fun b hb hle => ?_⟩
    rw [Item.total_lit] at hle
    obtain ⟨A1, e1⟩ := h1.inv.ub_ok (h2 b hb)
    obtain ⟨A2, e2⟩ := h1.inv.lb_ok hle fun h0 => h3 (b - 1) (by rw [Nat.sub_add_cancel h0]; exact hb) (by omega)
    exact ⟨A1 ++ A2, by show t'.enforceEq b = _; unfold Totalizer.enforceEq; rw [e1, e2]⟩
  eq_total e n cls ins own b h := by
    rw [Item.total_lit]
    show _ ∧ e.enforceEq b = _ ∨ _ ∧ ((∃ A, e.enforceEq b = _) ∨ e.enforceEq b = _)
    unfold Totalizer.enforceEq
    rcases Totalizer.Inv.enforceUb_cases h b with ⟨hb, e1⟩ | ⟨hb, e1, hn⟩ | ⟨hb, -, id, l, -, -, e1⟩ <;>
      rcases Totalizer.Inv.enforceLb_cases h b with ⟨hb', e2⟩ | ⟨hb', e2⟩ | ⟨_, hb', e2, -⟩ | ⟨_, hb', -, id', l', -, -, e2⟩ <;>
      rw [e1, e2] <;> simp <;> omega
  enforceEq e n cls ins own b A h hA := by
    obtain ⟨A1, A2, e1, e2, rfl⟩ := enforceBoth_ok (u := e.enforceUb b) (l := e.enforceLb b) hA
    refine ⟨fun m hm hc => ?_, fun a ha => ?_, fun l hl => ?_⟩
    · rw [Item.value_lit]
      exact Nat.le_antisymm (h.ub_sound e1 hm fun x hx => hc x (List.mem_append_left _ hx))
        (h.lb_sound e2 hm fun x hx => hc x (List.mem_append_right _ hx))
    · rw [Item.value_lit] at ha
      obtain ⟨m, h1, h2, h3, h4⟩ := h.core.complete a
      have hcount : countTrue m ins = b := by rw [countTrue_eq_of_holds h4, ha]
      refine ⟨m, h1, h3, fun x hx => ?_⟩
      rcases List.mem_append.1 hx with hx | hx
      · exact h.ub_strict e1 h2 (by omega) x hx
      · exact h.lb_strict e2 h2 (by omega) x hx
    · rcases List.mem_append.1 hl with hl | hl
      · exact h.ub_vars e1 l hl
      · exact h.lb_vars e2 l hl

end

/-! ### The generalized totalizer -/

namespace Gte
namespace Inv
variable {t : Gte} {n : Nat} {cls : ClauseSet} {ins : List (Lit × Nat)} {own : List Nat}

theorem extend (h : t.Inv n cls ins own) (lits : List (Lit × Nat))
    (hl : ∀ x ∈ lits, 0 < x.2 ∧ x.1.var < n ∧ x.1.var ∉ own) : (t.extend lits).Inv n cls (ins ++ lits) own := by
  refine ⟨?_, h.root, fun T => ?_, fun x hx => ?_⟩
  · have := h.core.add (lits.map (·.1)) fun l hm => by
      obtain ⟨x, hx, rfl⟩ := List.mem_map.1 hm
      exact (hl x hx).2
    rw [← List.map_append] at this
    exact this
  · have := h.val T
    show t.rootVal T + wsumT T (lits.foldl LitMap.addLit t.litBuffer) = _
    rw [LitMap.addLits_sum, wsumT_append]
    omega
  · rcases LitMap.addLits_mem _ _ x hx with h' | ⟨y, hy, h1, h2⟩
    · obtain ⟨h1, h2⟩ := h.buf x h'
      exact ⟨h1, by simp only [List.map_append, List.mem_append]; exact Or.inl h2⟩
    · have := (hl y hy).1
      refine ⟨by omega, ?_⟩
      simp only [List.map_append, List.mem_append]
      exact Or.inr (List.mem_map.2 ⟨y, hy, h1.symm⟩)

theorem ub_ok (h : t.Inv n cls ins own) {b : Nat} (he : b < wsumT (fun _ => true) ins → t.EncUb b) :
    ∃ A, t.enforceUb b = .ok A := by
  rcases h.enforceUb_cases b with ⟨hb, e⟩ | ⟨hb, e, hn⟩ | ⟨_, _, A, e, _⟩
  · exact ⟨_, e⟩
  · exact absurd (he hb) hn
  · exact ⟨_, e⟩

theorem ub_vars (h : t.Inv n cls ins own) {b : Nat} {A : List Lit} (hA : t.enforceUb b = .ok A) :
    ∀ l ∈ A, Item.vars ins l.var ∨ l.var ∈ own := by
  intro x hx
  have key : ∀ l : Lit, l ∈ ins.map (·.1) → Item.vars ins l.neg.var := fun l hl => by
    obtain ⟨y, hy, rfl⟩ := List.mem_map.1 hl
    exact ⟨y, hy, (Lit.var_neg _).symm⟩
  rcases h.enforceUb_cases b with ⟨hb, e⟩ | ⟨hb, e, hn⟩ | ⟨hb, -, A', e, hbuf, -, hA'⟩
  · rw [e] at hA; cases hA; cases hx
  · rw [e] at hA; cases hA
  · rw [e] at hA; cases hA
    rcases hA' x hx with ⟨y, hy, rfl⟩ | ⟨con, v, l, hr, hv, hl, rfl⟩
    · exact Or.inl (key _ (h.buf y hy).2)
    · exact (hl.vars h.core).imp (key l) fun h => by rw [Lit.var_neg]; exact h

end Inv
end Gte

section
variable {VM : Type} [ManageVars VM] [LawfulVM VM]

instance : LawfulEnc Gte (Lit × Nat) VM where
  Inv := Gte.Inv
  same e e' := ∃ buffer, buffer.Perm e.litBuffer ∧ e' = { e with litBuffer := buffer }
  new ins n hd h := (GteWorld.start_inv ins (⟨n⟩ : BasicVM) hd h).gte
  extend e n cls ins own lits h _ hl := h.extend lits hl
  reserve e vm cls ins own h := by
    obtain ⟨t', vm', e, h1, -, h3, -⟩ := h.reserve
    exact ⟨t', vm', e, h3, h1⟩
  same_inv e e' n cls ins own h hs := by
    obtain ⟨buffer, hp, rfl⟩ := hs
    refine ⟨h.core, h.root, fun T => ?_, fun x hx => h.buf x (hp.mem_iff.1 hx)⟩
    show e.rootVal T + wsumT T buffer = _
    rw [wsumT_perm T hp]
    exact h.val T
  more e n n' cls ins own h hn := { h with core := h.core.more hn }
  weightSum e n cls ins own h := by rw [Item.total_weighted]; exact h.weightSum
  ownLt e n cls ins own h := h.core.ownLt
  disj e n cls ins own h v hv := by
    rintro ⟨l, hl, rfl⟩
    exact h.core.disj _ (List.mem_map.2 ⟨l, hl, rfl⟩) hv
  vars e n cls ins own h c hc l hl := by
    rcases h.core.clauseVars c hc l hl with ⟨x, hx, h1⟩ | h1
    · obtain ⟨y, hy, rfl⟩ := List.mem_map.1 hx
      exact Or.inl ⟨y, hy, h1⟩
    · exact Or.inr h1
  free e n cls ins own h a := by
    obtain ⟨m, h1, -, h3, -⟩ := h.core.complete a
    exact ⟨m, h1, h3⟩

instance : LawfulUb Gte (Lit × Nat) VM where
  ubOk _ _ := True
  encodeUb e r vm cls ins own h _ col := by
    obtain ⟨t', vm', new, e, h1, h2, -⟩ := Gte.Inv.encodeUb h col r
    exact ⟨t', vm', new, e, h1.used, h1.inv, fun b hb => h1.inv.ub_ok (h2 b hb)⟩
  encodeUbChange e r vm cls ins own h _ col := by
    obtain ⟨t', vm', new, e, h1, h2, -⟩ := Gte.Inv.encodeUbChange h col r
    exact ⟨t', vm', new, e, h1.used, h1.inv, fun b hb => h1.inv.ub_ok (h2 b hb)⟩
  ub_total e n cls ins own b h := by
    rcases Gte.Inv.enforceUb_cases h b with ⟨hb, e⟩ | ⟨hb, e, hn⟩ | ⟨_, _, A, e, _⟩
    · exact Or.inl ⟨_, e⟩
    · exact Or.inr e
    · exact Or.inl ⟨_, e⟩
  ub_max e n cls ins own b h hb := h.ub_ok fun hl => by
    rw [Item.total_weighted] at hb
    omega
  enforceUb e n cls ins own b A h hA := by
    refine ⟨fun m hm hc => ?_, fun a ha => ?_, h.ub_vars hA⟩
    · rw [Item.value_weighted]; exact h.sound hA h.core.soundIf hm hc
    · rw [Item.value_weighted] at ha
      exact h.complete hA ha

end
end RustSat
