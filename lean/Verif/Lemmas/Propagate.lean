import Verif.Spec.Propagate
import Verif.Lemmas.Lit
/-
Lemmas for propagation (C88), and a simple unit propagation.
-/
namespace RustSat

theorem UnitDerives.mono {D : ClauseSet} {A B : List Lit} (h : ∀ a ∈ A, UnitDerives D B a) {l : Lit}
    (hl : UnitDerives D A l) : UnitDerives D B l := by
  induction hl with
  | assume ha => exact h _ ha
  | unit hc hm _ ih => exact .unit hc hm ih

theorem UnitConflict.mono {D : ClauseSet} {A B : List Lit} (h : ∀ a ∈ A, UnitDerives D B a) (hc : UnitConflict D A) :
    UnitConflict D B := by
  rcases hc with ⟨c, hc, hk⟩ | ⟨l, h1, h2⟩
  · exact .inl ⟨c, hc, fun k hm => (hk k hm).mono h⟩
  · exact .inr ⟨l, h1.mono h, h2.mono h⟩

theorem UnitDerives.implies {D : ClauseSet} {A : List Lit} {l : Lit} (h : UnitDerives D A l) : Implies (D ++ units A) l := by
  intro m hm
  induction h with
  | @assume l ha =>
    obtain ⟨k, hk, hh⟩ := hm [l] (List.mem_append_right _ (List.mem_map_of_mem ha))
    rw [List.mem_singleton.1 hk] at hh
    exact hh
  | @unit c l hc hl _ ih =>
    obtain ⟨k, hk, hh⟩ := hm c (List.mem_append_left _ hc)
    by_cases e : k = l
    · exact e ▸ hh
    · have := ih k hk e
      rw [Lit.holds_neg, hh] at this
      cases this

theorem UnitConflict.unsatisfiable {D : ClauseSet} {A : List Lit} (h : UnitConflict D A) : Unsatisfiable (D ++ units A) := by
  rintro ⟨m, hm⟩
  rcases h with ⟨c, hc, hk⟩ | ⟨l, h1, h2⟩
  · obtain ⟨k, hkc, hh⟩ := hm c (List.mem_append_left _ hc)
    have := (hk k hkc).implies m hm
    rw [Lit.holds_neg, hh] at this
    cases this
  · have a := h1.implies m hm
    have b := h2.implies m hm
    rw [Lit.holds_neg, a] at b
    cases b

/-- Nothing more is derived from a trail that is propagated. -/
theorem Propagated.derives {D : ClauseSet} {T A : List Lit} (h : Propagated D T) (hA : ∀ a ∈ A, a ∈ T) {l : Lit}
    (hl : UnitDerives D A l) : l ∈ T := by
  induction hl with
  | assume ha => exact hA _ ha
  | unit hc hm _ ih => exact h.1 _ hc _ hm ih

theorem Propagated.noConflict {D : ClauseSet} {T A : List Lit} (h : Propagated D T) (hc : Consistent T)
    (hA : ∀ a ∈ A, a ∈ T) : ¬ UnitConflict D A := by
  rintro (⟨c, hcD, hk⟩ | ⟨l, h1, h2⟩)
  · exact h.2 c hcD fun k hkc => h.derives hA (hk k hkc)
  · exact hc l (h.derives hA h1) (h.derives hA h2)

namespace PropCheck

/-- The invariant of the loop after the assumptions `B`. -/
structure Inv (D : ClauseSet) (T0 B : List Lit) (t : Local) : Prop where
  pre : ∃ R, t.trail = T0 ++ R
  lim : t.lim = none ∧ t.trail = T0 ∧ t.confl = none ∨ t.lim = some T0.length
  consistent : Consistent t.trail
  derives : ∀ l ∈ t.trail, UnitDerives D B l
  confl : ∀ l, t.confl = some l → UnitConflict D B
  unsat : t.unsat = true → UnitConflict D B
  run : t.unsat = false → t.confl = none → Propagated D t.trail ∧ ∀ a ∈ B, a ∈ t.trail

theorem loop_inv {D : ClauseSet} {up : List Lit → List Lit × Option Lit} (hup : Propagates D up) {n : Nat} {T0 : List Lit} :
    ∀ (A B : List Lit) (t t' : Local), Inv D T0 B t → loop n up A t = some t' → Inv D T0 (B ++ A) t' := by
  have stop : ∀ {B A : List Lit} {t : Local}, Inv D T0 B t → (t.unsat = true ∨ t.confl.isSome) → Inv D T0 (B ++ A) t := by
    intro B A t h hs
    have hm : ∀ a ∈ B, UnitDerives D (B ++ A) a := fun a ha => .assume (List.mem_append_left _ ha)
    refine ⟨h.pre, h.lim, h.consistent, fun l hl => (h.derives l hl).mono hm, fun l hl => (h.confl l hl).mono hm,
      fun hu => (h.unsat hu).mono hm, fun hu hc => ?_⟩
    rcases hs with hs | hs
    · rw [hu] at hs; cases hs
    · rw [hc] at hs; cases hs
  intro A
  induction A with
  | nil =>
    intro B t t' h e
    injection e with e
    subst e
    rw [List.append_nil]
    exact h
  | cons p A ih =>
    intro B t t' h e
    unfold loop at e
    by_cases hs : (t.unsat || t.confl.isSome) = true
    · rw [if_pos hs] at e
      injection e with e
      subst e
      exact stop h (by simpa using hs)
    rw [if_neg hs] at e
    have hu : t.unsat = false := by
      cases hx : t.unsat with
      | false => rfl
      | true => simp [hx] at hs
    have hc : t.confl = none := by
      cases hx : t.confl with
      | none => rfl
      | some l => simp [hx] at hs
    obtain ⟨hp, hB⟩ := h.run hu hc
    have hm : ∀ a ∈ B, UnitDerives D (B ++ [p]) a := fun a ha => .assume (List.mem_append_left _ ha)
    have happ : B ++ p :: A = B ++ [p] ++ A := by simp
    rw [happ]
    by_cases hn : n ≤ p.var
    · rw [if_pos hn] at e
      cases e
    rw [if_neg hn] at e
    by_cases hf : p.neg ∈ t.trail
    · rw [if_pos hf] at e
      refine ih _ { t with unsat := true } _
        ⟨h.pre, h.lim, h.consistent, fun l hl => (h.derives l hl).mono hm, fun l hl => ?_, fun _ => ?_, nofun⟩ e
      · exact (h.confl l hl).mono hm
      · exact .inr ⟨p, .assume (by simp), (h.derives _ hf).mono hm⟩
    rw [if_neg hf] at e
    by_cases ht : p ∈ t.trail
    · rw [if_pos ht] at e
      refine ih _ _ _ ⟨h.pre, h.lim, h.consistent, fun l hl => (h.derives l hl).mono hm, fun l hl => (h.confl l hl).mono hm,
        fun hu => (h.unsat hu).mono hm, fun _ _ => ⟨hp, fun a ha => ?_⟩⟩ e
      rcases List.mem_append.1 ha with ha | ha
      · exact hB a ha
      · rw [List.mem_singleton.1 ha]; exact ht
    rw [if_neg ht] at e
    obtain ⟨R, hR⟩ := h.pre
    obtain ⟨S, hS⟩ := hup.extends_ (t.trail ++ [p])
    have hder : ∀ l ∈ (up (t.trail ++ [p])).1, UnitDerives D (B ++ [p]) l := by
      intro l hl
      refine (hup.derives _ l hl).mono fun a ha => ?_
      rcases List.mem_append.1 ha with ha | ha
      · exact (h.derives a ha).mono hm
      · exact .assume (List.mem_append_right _ ha)
    refine ih _ ⟨(up (t.trail ++ [p])).1, t.lim.or (some t.trail.length), false, (up (t.trail ++ [p])).2⟩ _
      ⟨?_, .inr ?_, hup.consistent _ ?_, hder, fun l hl => ?_, nofun, fun _ hnone => ⟨hup.done _ hnone, ?_⟩⟩ e
    · show ∃ R, (up (t.trail ++ [p])).1 = T0 ++ R
      rw [← hS, hR]
      exact ⟨R ++ [p] ++ S, by simp⟩
    · show t.lim.or (some t.trail.length) = some T0.length
      rcases h.lim with ⟨h1, h2, _⟩ | h1
      · rw [h1, h2]; rfl
      · rw [h1]; rfl
    · intro l hl hl'
      rcases List.mem_append.1 hl with hl | hl
      · rcases List.mem_append.1 hl' with hl' | hl'
        · exact h.consistent l hl hl'
        · have : l = p.neg := by rw [← List.mem_singleton.1 hl', Lit.neg_neg]
          exact hf (this ▸ hl)
      · rw [List.mem_singleton.1 hl] at hl'
        rcases List.mem_append.1 hl' with hl' | hl'
        · exact hf hl'
        · exact absurd (List.mem_singleton.1 hl') (Lit.neg_ne p)
    · obtain ⟨c, hc, _, hk⟩ := hup.conflict _ l hl
      exact .inl ⟨c, hc, fun k hkc => hder _ (hk k hkc)⟩
    · intro a ha
      show a ∈ (up (t.trail ++ [p])).1
      rw [← hS]
      rcases List.mem_append.1 ha with ha | ha
      · simp [hB a ha]
      · simp [List.mem_singleton.1 ha]

theorem loop_total (up : List Lit → List Lit × Option Lit) {n : Nat} : ∀ (A : List Lit) (t : Local),
    (∀ l ∈ A, l.var < n) → ∃ t', loop n up A t = some t' := by
  intro A
  induction A with
  | nil => exact fun t _ => ⟨t, rfl⟩
  | cons p A ih =>
    intro t h
    have h1 := h p List.mem_cons_self
    have h2 : ∀ l ∈ A, l.var < n := fun l hl => h l (List.mem_cons_of_mem _ hl)
    unfold loop
    by_cases hs : (t.unsat || t.confl.isSome) = true
    · exact ⟨t, if_pos hs⟩
    rw [if_neg hs, if_neg (by omega)]
    by_cases hf : p.neg ∈ t.trail
    · rw [if_pos hf]; exact ih _ h2
    rw [if_neg hf]
    by_cases ht : p ∈ t.trail
    · rw [if_pos ht]; exact ih _ h2
    rw [if_neg ht]
    exact ih _ h2

/-! ### A simple unit propagation -/

/-- A literal that is not on the trail and the other literals of a clause with it are false. -/
def unitLit (D : ClauseSet) (T : List Lit) : Option Lit :=
  D.findSome? fun c => c.find? fun l => decide (l ∉ T) && c.all fun k => decide (k = l) || decide (k.neg ∈ T)

/-- Repeated scans of the clauses. -/
def scan (D : ClauseSet) : Nat → List Lit → List Lit × Option Lit
  | 0, T => (T, none)
  | n + 1, T =>
    match D.find? fun c => c.all fun k => decide (k.neg ∈ T) with
    | some c => (T, c.head?)
    | none =>
      match unitLit D T with
      | some l => scan D n (T ++ [l])
      | none => (T, none)

/-- Unit propagation. -/
def simpleUp (D : ClauseSet) (T : List Lit) : List Lit × Option Lit := scan D (D.flatten.length + 1) T

theorem unitLit_some {D : ClauseSet} {T : List Lit} {l : Lit} (h : unitLit D T = some l) :
    ∃ c ∈ D, l ∈ c ∧ l ∉ T ∧ ∀ k ∈ c, k ≠ l → k.neg ∈ T := by
  unfold unitLit at h
  obtain ⟨c, hc, hf⟩ := List.exists_of_findSome?_eq_some h
  have h1 := List.find?_some hf
  have h2 := List.mem_of_find?_eq_some hf
  simp only [Bool.and_eq_true, decide_eq_true_eq, List.all_eq_true, Bool.or_eq_true] at h1
  exact ⟨c, hc, h2, h1.1, fun k hk hne => (h1.2 k hk).resolve_left hne⟩

theorem unitLit_none {D : ClauseSet} {T : List Lit} (h : unitLit D T = none) :
    ∀ c ∈ D, ∀ l ∈ c, (∀ k ∈ c, k ≠ l → k.neg ∈ T) → l ∈ T := by
  intro c hc l hl hk
  unfold unitLit at h
  have h1 := List.findSome?_eq_none_iff.1 h c hc
  have h2 := List.find?_eq_none.1 h1 l hl
  by_cases hT : l ∈ T
  · exact hT
  · refine absurd ?_ h2
    simp only [Bool.and_eq_true, decide_eq_true_eq, List.all_eq_true, Bool.or_eq_true]
    refine ⟨hT, fun k hkc => ?_⟩
    by_cases e : k = l
    · exact .inl e
    · exact .inr (hk k hkc e)

theorem countP_lt {D : List Lit} {T : List Lit} {l : Lit} (h1 : l ∈ D) (h2 : l ∉ T) :
    D.countP (fun k => decide (k ∉ T ++ [l])) < D.countP (fun k => decide (k ∉ T)) := by
  induction D with
  | nil => cases h1
  | cons a D ih =>
    have hle : D.countP (fun k => decide (k ∉ T ++ [l])) ≤ D.countP (fun k => decide (k ∉ T)) := by
      refine List.countP_mono_left fun k _ hk => ?_
      simp at hk ⊢
      exact hk.1
    rw [List.countP_cons, List.countP_cons]
    by_cases e : a = l
    · subst e
      simp [h2]
      simp at hle
      omega
    · have hm : l ∈ D := by
        rcases List.mem_cons.1 h1 with h1 | h1
        · exact absurd h1.symm e
        · exact h1
      have := ih hm
      have hiff : (a ∉ T ++ [l]) ↔ a ∉ T := by simp [e]
      simp only [hiff]
      omega

theorem scan_spec {D : ClauseSet} (he : [] ∉ D) : ∀ (n : Nat) (T : List Lit), T <+: (scan D n T).1 ∧
    (∀ l ∈ (scan D n T).1, UnitDerives D T l) ∧ (Consistent T → Consistent (scan D n T).1) ∧
    (∀ l, (scan D n T).2 = some l → ∃ c ∈ D, l ∈ c ∧ ∀ k ∈ c, k.neg ∈ (scan D n T).1) ∧
    (D.flatten.countP (fun k => decide (k ∉ T)) < n → (scan D n T).2 = none → Propagated D (scan D n T).1) := by
  intro n
  induction n with
  | zero =>
    intro T
    exact ⟨List.prefix_refl T, fun l hl => .assume hl, id, nofun, fun h => absurd h (by omega)⟩
  | succ n ih =>
    intro T
    unfold scan
    cases hf : D.find? fun c => c.all fun k => decide (k.neg ∈ T) with
    | some c =>
      have h1 := List.find?_some hf
      have h2 := List.mem_of_find?_eq_some hf
      simp only [List.all_eq_true, decide_eq_true_eq] at h1
      refine ⟨List.prefix_refl T, fun l hl => .assume hl, id, fun l hl => ⟨c, h2, List.mem_of_mem_head? hl, h1⟩, fun _ hn => ?_⟩
      have : c = [] := List.head?_eq_none_iff.1 hn
      exact absurd (this ▸ h2) he
    | none =>
      have hnf : ∀ c ∈ D, ¬ ∀ k ∈ c, k.neg ∈ T := by
        intro c hc hk
        have := List.find?_eq_none.1 hf c hc
        simp only [List.all_eq_true, decide_eq_true_eq] at this
        exact this hk
      cases hu : unitLit D T with
      | none =>
        exact ⟨List.prefix_refl T, fun l hl => .assume hl, id, nofun, fun _ _ => ⟨unitLit_none hu, hnf⟩⟩
      | some l =>
        obtain ⟨c, hc, hl, hlT, hk⟩ := unitLit_some hu
        obtain ⟨i1, i2, i3, i4, i5⟩ := ih (T ++ [l])
        refine ⟨(List.prefix_append T [l]).trans i1, fun k hkm => (i2 k hkm).mono fun a ha => ?_, fun hcons => i3 ?_, i4,
          fun hlt hn => i5 ?_ hn⟩
        · rcases List.mem_append.1 ha with ha | ha
          · exact .assume ha
          · rw [List.mem_singleton.1 ha]
            exact .unit hc hl fun k hkc hne => .assume (hk k hkc hne)
        · have hln : l.neg ∉ T := fun h => hnf c hc fun k hkc => by
            by_cases e : k = l
            · exact e ▸ h
            · exact hk k hkc e
          intro k hkm hkn
          rcases List.mem_append.1 hkm with hkm | hkm
          · rcases List.mem_append.1 hkn with hkn | hkn
            · exact hcons k hkm hkn
            · have : k = l.neg := by rw [← List.mem_singleton.1 hkn, Lit.neg_neg]
              exact hln (this ▸ hkm)
          · rw [List.mem_singleton.1 hkm] at hkn
            rcases List.mem_append.1 hkn with hkn | hkn
            · exact hln hkn
            · exact absurd (List.mem_singleton.1 hkn) (Lit.neg_ne l)
        · have := countP_lt (D := D.flatten) (List.mem_flatten.2 ⟨c, hc, hl⟩) hlT
          omega

/-- The simple unit propagation meets the specification. -/
theorem simpleUp_propagates {D : ClauseSet} (he : [] ∉ D) : Propagates D (simpleUp D) where
  extends_ T := (scan_spec he _ T).1
  derives T := (scan_spec he _ T).2.1
  consistent T := (scan_spec he _ T).2.2.1
  conflict T := (scan_spec he _ T).2.2.2.1
  done T := (scan_spec he _ T).2.2.2.2 (Nat.lt_succ_of_le List.countP_le_length)

end PropCheck
end RustSat
