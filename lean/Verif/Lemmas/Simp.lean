import Verif.Spec.Simp
import Verif.Lemmas.Lit
/-
Lemmas about variable elimination and the extension of models.
-/
namespace RustSat
namespace Simp

theorem taut_iff {c : Clause} : taut c = true ↔ ∃ l ∈ c, l.neg ∈ c := by
  unfold taut
  simp [List.any_eq_true]

theorem mem_others {v : Nat} {c : Clause} {l : Lit} : l ∈ others v c ↔ l ∈ c ∧ l.var ≠ v := by
  unfold others
  simp [List.mem_filter]

theorem lit_of_var {l : Lit} {v : Nat} (h : l.var = v) : l = Lit.pos v ∨ l = Lit.negOf v := by
  cases hn : l.isNeg with
  | false => exact .inl (Lit.ext_var (by simpa using h) (by simpa using hn))
  | true => exact .inr (Lit.ext_var (by simpa using h) (by simpa using hn))

theorem litOf_true {p : Nat → Option Bool} {l : Lit} : litOf p l = some true ↔ p l.var = some (!l.isNeg) := by
  unfold litOf
  cases p l.var with
  | none => simp
  | some b => cases b <;> cases l.isNeg <;> simp

theorem litOf_false {p : Nat → Option Bool} {l : Lit} : litOf p l = some false ↔ p l.var = some l.isNeg := by
  unfold litOf
  cases p l.var with
  | none => simp
  | some b => cases b <;> cases l.isNeg <;> simp

/-- All literals are false. -/
def AllFalse (p : Nat → Option Bool) (ls : List Lit) : Prop := ∀ l ∈ ls, litOf p l = some false

theorem extendStep_eq (p : Nat → Option Bool) (e : Lit × List Lit) :
    (AllFalse p e.2 → extendStep p e = fun v => if v = e.1.var then some (!e.1.isNeg) else p v) ∧
    (¬ AllFalse p e.2 → extendStep p e = p) := by
  unfold extendStep
  by_cases h : e.2.any (fun l => litOf p l != some false) = true
  · rw [if_pos h]
    obtain ⟨l, hl, hne⟩ := List.any_eq_true.1 h
    refine ⟨fun ha => ?_, fun _ => rfl⟩
    rw [ha l hl] at hne
    simp at hne
  · rw [if_neg h]
    refine ⟨fun _ => rfl, fun ha => absurd (fun l hl => ?_) ha⟩
    have := fun hne => h (List.any_eq_true.2 ⟨l, hl, hne⟩)
    simpa using this

theorem AllFalse.congr {p q : Nat → Option Bool} {v : Nat} {c : Clause} (h : ∀ w, w ≠ v → q w = p w) :
    AllFalse q (others v c) ↔ AllFalse p (others v c) := by
  have : ∀ l ∈ others v c, litOf q l = litOf p l := by
    intro l hl
    unfold litOf
    rw [h l.var (mem_others.1 hl).2]
  exact ⟨fun ha l hl => by rw [← this l hl]; exact ha l hl, fun ha l hl => by rw [this l hl]; exact ha l hl⟩

theorem fold_same {v : Nat} {x : Lit} (hx : x.var = v) (C : ClauseSet) : ∀ p : Nat → Option Bool,
    (∀ w, w ≠ v → (C.map fun c => (x, others v c)).foldl extendStep p w = p w) ∧
    ((∃ c ∈ C, AllFalse p (others v c)) → (C.map fun c => (x, others v c)).foldl extendStep p v = some (!x.isNeg)) ∧
    ((∀ c ∈ C, ¬ AllFalse p (others v c)) → (C.map fun c => (x, others v c)).foldl extendStep p v = p v) := by
  induction C with
  | nil => exact fun p => ⟨fun _ _ => rfl, (fun h => by obtain ⟨c, hc, _⟩ := h; cases hc), fun _ => rfl⟩
  | cons d C ih =>
    intro p
    rw [List.map_cons, List.foldl_cons]
    by_cases hd : AllFalse p (others v d)
    · have e := (extendStep_eq p (x, others v d)).1 hd
      have hq : ∀ w, w ≠ v → extendStep p (x, others v d) w = p w := by
        intro w hw
        rw [e]
        exact if_neg (by rw [hx]; exact hw)
      have hqv : extendStep p (x, others v d) v = some (!x.isNeg) := by
        rw [e]
        exact if_pos hx.symm
      obtain ⟨i1, i2, i3⟩ := ih (extendStep p (x, others v d))
      refine ⟨fun w hw => (i1 w hw).trans (hq w hw), fun _ => ?_, fun hn => absurd hd (hn d List.mem_cons_self)⟩
      by_cases hC : ∃ c ∈ C, AllFalse (extendStep p (x, others v d)) (others v c)
      · exact i2 hC
      · rw [i3 fun c hc ha => hC ⟨c, hc, ha⟩]
        exact hqv
    · rw [(extendStep_eq p (x, others v d)).2 hd]
      obtain ⟨i1, i2, i3⟩ := ih p
      refine ⟨i1, fun hc => i2 ?_, fun hn => i3 fun c hc => hn c (List.mem_cons_of_mem _ hc)⟩
      obtain ⟨c, hc, ha⟩ := hc
      rcases List.mem_cons.1 hc with rfl | hc
      · exact absurd ha hd
      · exact ⟨c, hc, ha⟩

/-- Undoing the elimination of a variable: `D` are the clauses with the literal `x` that is made true first, `C` the clauses
that are stored. -/
theorem extend_block {v : Nat} {x : Lit} (hx : x.var = v) {p : Nat → Option Bool} {C D : ClauseSet}
    (hD : ∀ c ∈ D, x ∈ c) (hC : ∀ d ∈ C, x.neg ∈ d)
    (hr : ∀ c ∈ D, ∀ d ∈ C, (∃ l ∈ others v c ++ others v d, litOf p l = some true) ∨
      ∃ l ∈ others v c ++ others v d, l.neg ∈ others v c ++ others v d)
    (ha : ∀ c ∈ D ++ C, ∀ l ∈ others v c, p l.var ≠ none) :
    let q := extendModel ((x, []) :: C.reverse.map fun c => (x.neg, others v c)) p
    (∀ w, w ≠ v → q w = p w) ∧ q v ≠ none ∧ ∀ c ∈ D ++ C, ∃ l ∈ c, litOf q l = some true := by
  intro q
  have e0 : extendStep p (x, []) = fun w => if w = v then some (!x.isNeg) else p w := by
    rw [(extendStep_eq p (x, [])).1 nofun, hx]
  have hqe : q = (C.reverse.map fun c => (x.neg, others v c)).foldl extendStep
      (fun w => if w = v then some (!x.isNeg) else p w) := by
    show List.foldl extendStep p (_ :: _) = _
    rw [List.foldl_cons, e0]
  obtain ⟨f1, f2, f3⟩ := fold_same (x := x.neg) (v := v) ((Lit.var_neg x).trans hx) C.reverse
    (fun w => if w = v then some (!x.isNeg) else p w)
  rw [← hqe] at f1 f2 f3
  have hp0 : ∀ w, w ≠ v → (fun w => if w = v then some (!x.isNeg) else p w) w = p w := fun w hw => if_neg hw
  have hsame : ∀ w, w ≠ v → q w = p w := fun w hw => (f1 w hw).trans (hp0 w hw)
  have hlit : ∀ l : Lit, l.var ≠ v → litOf q l = litOf p l := fun l hl => by unfold litOf; rw [hsame _ hl]
  refine ⟨hsame, ?_, ?_⟩
  · by_cases h : ∃ c ∈ C.reverse, AllFalse (fun w => if w = v then some (!x.isNeg) else p w) (others v c)
    · rw [f2 h]; exact nofun
    · rw [f3 fun c hc h' => h ⟨c, hc, h'⟩]
      show (if v = v then some (!x.isNeg) else p v) ≠ none
      rw [if_pos rfl]
      exact nofun
  by_cases h : ∃ c ∈ C.reverse, AllFalse (fun w => if w = v then some (!x.isNeg) else p w) (others v c)
  · have hv := f2 h
    obtain ⟨d, hd, hf⟩ := h
    rw [AllFalse.congr hp0] at hf
    have hd := List.mem_reverse.1 hd
    intro c hc
    rcases List.mem_append.1 hc with hcD | hcC
    · have key : ∃ l ∈ others v c ++ others v d, litOf p l = some true := by
        rcases hr c hcD d hd with h | ⟨l, hl, hn⟩
        · exact h
        · have hne : p l.var ≠ none := by
            rcases List.mem_append.1 hl with h | h
            · exact ha c hc l h
            · exact ha d (List.mem_append_right _ hd) l h
          cases hp : p l.var with
          | none => exact absurd hp hne
          | some b =>
            by_cases hb : b = l.isNeg
            · refine ⟨l.neg, hn, litOf_true.2 ?_⟩
              rw [Lit.var_neg, Lit.isNeg_neg, Bool.not_not, hp, hb]
            · refine ⟨l, hl, litOf_true.2 ?_⟩
              rw [hp]
              cases b <;> cases hl' : l.isNeg <;> simp_all
      obtain ⟨l, hl, ht⟩ := key
      rcases List.mem_append.1 hl with hl | hl
      · exact ⟨l, (mem_others.1 hl).1, by rw [hlit l (mem_others.1 hl).2]; exact ht⟩
      · rw [hf l hl] at ht
        cases ht
    · refine ⟨x.neg, hC c hcC, litOf_true.2 ?_⟩
      rw [Lit.var_neg, hx, hv]
  · have hv := f3 fun c hc h' => h ⟨c, hc, h'⟩
    have hv : q v = some (!x.isNeg) := hv.trans (if_pos rfl)
    intro c hc
    rcases List.mem_append.1 hc with hcD | hcC
    · refine ⟨x, hD c hcD, litOf_true.2 ?_⟩
      rw [hx, hv]
    · have hnf : ¬ AllFalse p (others v c) := by
        rw [← AllFalse.congr hp0]
        exact fun h' => h ⟨c, List.mem_reverse.2 hcC, h'⟩
      have : ∃ l ∈ others v c, litOf p l ≠ some false := by
        by_cases hex : ∃ l ∈ others v c, litOf p l ≠ some false
        · exact hex
        · exact absurd (fun l hl => Classical.byContradiction fun hne => hex ⟨l, hl, hne⟩) hnf
      obtain ⟨l, hl, hne⟩ := this
      refine ⟨l, (mem_others.1 hl).1, ?_⟩
      rw [hlit l (mem_others.1 hl).2]
      have hass := ha c hc l hl
      unfold litOf at hne ⊢
      cases hp : p l.var with
      | none => exact absurd hp hass
      | some b =>
        rw [hp] at hne
        cases b <;> cases hl' : l.isNeg <;> simp_all

theorem mem_posOf {v : Nat} {G : ClauseSet} {c : Clause} : c ∈ posOf v G ↔ c ∈ G ∧ Lit.pos v ∈ c := by
  unfold posOf
  simp [List.mem_filter]

theorem mem_negOf {v : Nat} {G : ClauseSet} {c : Clause} :
    c ∈ negOf v G ↔ c ∈ G ∧ Lit.pos v ∉ c ∧ Lit.negOf v ∈ c := by
  unfold negOf
  simp [List.mem_filter]

theorem mem_without {v : Nat} {G : ClauseSet} {c : Clause} :
    c ∈ without v G ↔ c ∈ G ∧ Lit.pos v ∉ c ∧ Lit.negOf v ∉ c := by
  unfold without
  simp [List.mem_filter]

theorem mem_resolvents {v : Nat} {P N : ClauseSet} {e : Clause} :
    e ∈ resolvents v P N ↔ ∃ c ∈ P, ∃ d ∈ N, normalise (others v c ++ others v d) = some e := by
  unfold resolvents
  simp [List.mem_flatMap, List.mem_filterMap]

theorem normalise_some {c e : Clause} (h : normalise c = some e) : taut c = false ∧ ∀ l, l ∈ e ↔ l ∈ c := by
  unfold normalise at h
  cases ht : taut c with
  | true => rw [ht] at h; cases h
  | false =>
    rw [ht] at h
    injection h with h
    subst h
    exact ⟨rfl, fun l => List.mem_eraseDups⟩

theorem normalise_none {c : Clause} (h : normalise c = none) : ∃ l ∈ c, l.neg ∈ c := by
  unfold normalise at h
  cases ht : taut c with
  | true => exact taut_iff.1 ht
  | false => rw [ht] at h; cases h

theorem normalise_taut {c e : Clause} (h : normalise c = some e) : taut e = false := by
  obtain ⟨h1, h2⟩ := normalise_some h
  cases ht : taut e with
  | false => rfl
  | true =>
    obtain ⟨l, hl, hn⟩ := taut_iff.1 ht
    have := taut_iff.2 ⟨l, (h2 l).1 hl, (h2 _).1 hn⟩
    rw [h1] at this
    cases this

/-- Extending a model of the clauses after an elimination gives a model of the clauses before. -/
theorem extend_stored {v : Nat} {G : ClauseSet} {p : Nat → Option Bool}
    (ht : MakesTrue p (without v G ++ resolvents v (posOf v G) (negOf v G)))
    (ha : ∀ c ∈ G, ∀ l ∈ c, l.var ≠ v → p l.var ≠ none) :
    let q := extendModel (stored v (posOf v G) (negOf v G)) p
    (∀ w, w ≠ v → q w = p w) ∧ q v ≠ none ∧ MakesTrue q G := by
  intro q
  have hr : ∀ c ∈ posOf v G, ∀ d ∈ negOf v G, (∃ l ∈ others v c ++ others v d, litOf p l = some true) ∨
      ∃ l ∈ others v c ++ others v d, l.neg ∈ others v c ++ others v d := by
    intro c hc d hd
    cases hn : normalise (others v c ++ others v d) with
    | none => exact .inr (normalise_none hn)
    | some e =>
      obtain ⟨l, hl, h⟩ := ht e (List.mem_append_right _ (mem_resolvents.2 ⟨c, hc, d, hd, hn⟩))
      exact .inl ⟨l, ((normalise_some hn).2 l).1 hl, litOf_true.2 h⟩
  have hG : ∀ c ∈ posOf v G ++ negOf v G, c ∈ G := by
    intro c hc
    rcases List.mem_append.1 hc with hc | hc
    · exact (mem_posOf.1 hc).1
    · exact (mem_negOf.1 hc).1
  have ha' : ∀ c ∈ posOf v G ++ negOf v G, ∀ l ∈ others v c, p l.var ≠ none := fun c hc l hl =>
    ha c (hG c hc) l (mem_others.1 hl).1 (mem_others.1 hl).2
  have key : (∀ w, w ≠ v → q w = p w) ∧ q v ≠ none ∧ ∀ c ∈ posOf v G ++ negOf v G, ∃ l ∈ c, litOf q l = some true := by
    by_cases hlen : (negOf v G).length < (posOf v G).length
    · have e : stored v (posOf v G) (negOf v G) =
          (Lit.pos v, []) :: (negOf v G).reverse.map fun c => ((Lit.pos v).neg, others v c) := by
        unfold stored
        rw [if_pos hlen]
        have : (Lit.pos v).neg = Lit.negOf v := by rw [← Lit.neg_negOf, Lit.neg_neg]
        rw [this]
      have := extend_block (x := Lit.pos v) (v := v) (by simp) (p := p) (C := negOf v G) (D := posOf v G)
        (fun c hc => (mem_posOf.1 hc).2)
        (fun d hd => by
          have : (Lit.pos v).neg = Lit.negOf v := by rw [← Lit.neg_negOf, Lit.neg_neg]
          rw [this]
          exact (mem_negOf.1 hd).2.2) hr ha'
      rw [← e] at this
      exact this
    · have e : stored v (posOf v G) (negOf v G) =
          (Lit.negOf v, []) :: (posOf v G).reverse.map fun c => ((Lit.negOf v).neg, others v c) := by
        unfold stored
        rw [if_neg hlen, Lit.neg_negOf]
      have := extend_block (x := Lit.negOf v) (v := v) (by simp) (p := p) (C := posOf v G) (D := negOf v G)
        (fun c hc => (mem_negOf.1 hc).2.2)
        (fun d hd => by rw [Lit.neg_negOf]; exact (mem_posOf.1 hd).2)
        (fun c hc d hd => by
          rcases hr d hd c hc with ⟨l, hl, h⟩ | ⟨l, hl, h⟩
          · exact .inl ⟨l, by rw [List.mem_append] at hl ⊢; exact hl.symm, h⟩
          · exact .inr ⟨l, by rw [List.mem_append] at hl ⊢; exact hl.symm, by rw [List.mem_append] at h ⊢; exact h.symm⟩)
        (fun c hc => ha' c (by rw [List.mem_append] at hc ⊢; exact hc.symm))
      rw [← e] at this
      refine ⟨this.1, this.2.1, fun c hc => this.2.2 c (by rw [List.mem_append] at hc ⊢; exact hc.symm)⟩
  refine ⟨key.1, key.2.1, fun c hc => ?_⟩
  by_cases h1 : Lit.pos v ∈ c
  · obtain ⟨l, hl, h⟩ := key.2.2 c (List.mem_append_left _ (mem_posOf.2 ⟨hc, h1⟩))
    exact ⟨l, hl, litOf_true.1 h⟩
  by_cases h2 : Lit.negOf v ∈ c
  · obtain ⟨l, hl, h⟩ := key.2.2 c (List.mem_append_right _ (mem_negOf.2 ⟨hc, h1, h2⟩))
    exact ⟨l, hl, litOf_true.1 h⟩
  obtain ⟨l, hl, h⟩ := ht c (List.mem_append_left _ (mem_without.2 ⟨hc, h1, h2⟩))
  refine ⟨l, hl, ?_⟩
  rw [key.1 l.var fun hv => by rcases lit_of_var hv with rfl | rfl <;> contradiction]
  exact h

/-- The clauses after an elimination follow from those before. -/
theorem eliminate_sound {v : Nat} {G : ClauseSet} (hn : ∀ c ∈ G, taut c = false) {m : Asg} (h : ClauseSet.sat m G) :
    ClauseSet.sat m (without v G ++ resolvents v (posOf v G) (negOf v G)) := by
  intro e he
  rcases List.mem_append.1 he with he | he
  · exact h e (mem_without.1 he).1
  · obtain ⟨c, hc, d, hd, he⟩ := mem_resolvents.1 he
    obtain ⟨hcG, hcv⟩ := mem_posOf.1 hc
    obtain ⟨hdG, hdv, hdn⟩ := mem_negOf.1 hd
    have hcn : Lit.negOf v ∉ c := by
      intro hin
      have : taut c = true := taut_iff.2 ⟨Lit.negOf v, hin, by rw [Lit.neg_negOf]; exact hcv⟩
      rw [hn c hcG] at this
      cases this
    obtain ⟨l, hl, hlm⟩ := h c hcG
    obtain ⟨k, hk, hkm⟩ := h d hdG
    have hmem := (normalise_some he).2
    by_cases hlv : l.var = v
    · rcases lit_of_var hlv with rfl | rfl
      · by_cases hkv : k.var = v
        · rcases lit_of_var hkv with rfl | rfl
          · exact absurd hk hdv
          · rw [Lit.holds_negOf] at hkm
            have : (Lit.pos v).holds m = m v := by simp [Lit.holds]
            rw [this] at hlm
            rw [hlm] at hkm
            cases hkm
        · exact ⟨k, (hmem k).2 (List.mem_append_right _ (mem_others.2 ⟨hk, hkv⟩)), hkm⟩
      · exact absurd hl hcn
    · exact ⟨l, (hmem l).2 (List.mem_append_left _ (mem_others.2 ⟨hl, hlv⟩)), hlm⟩

theorem extendModel_append (a b : List (Lit × List Lit)) (p : Nat → Option Bool) :
    extendModel (a ++ b) p = extendModel b (extendModel a p) := List.foldl_append

theorem extendModel_same (es : List (Lit × List Lit)) (w : Nat) : ∀ p : Nat → Option Bool,
    (∀ e ∈ es, e.1.var ≠ w) → extendModel es p w = p w := by
  induction es with
  | nil => intros; rfl
  | cons e es ih =>
    intro p h
    show extendModel es (extendStep p e) w = p w
    rw [ih _ fun e' he => h e' (List.mem_cons_of_mem _ he)]
    by_cases ha : AllFalse p e.2
    · rw [(extendStep_eq p e).1 ha]
      exact if_neg fun hw => h e List.mem_cons_self hw.symm
    · rw [(extendStep_eq p e).2 ha]

theorem stored_var {v : Nat} {P N : ClauseSet} : ∀ e ∈ stored v P N, e.1.var = v := by
  intro e he
  unfold stored at he
  split at he
  · rcases List.mem_cons.1 he with rfl | he
    · simp
    · obtain ⟨c, _, rfl⟩ := List.mem_map.1 he
      simp
  · rcases List.mem_cons.1 he with rfl | he
    · simp
    · obtain ⟨c, _, rfl⟩ := List.mem_map.1 he
      simp

end Simp
end RustSat
