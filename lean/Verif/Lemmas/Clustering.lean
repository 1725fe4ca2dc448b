import Verif.Spec.Clustering
import Verif.Lemmas.Am1
import Verif.Lemmas.Lit
import Mathlib.Tactic.Ring
import Mathlib.Data.List.Nodup
/-
Lemmas for the clustering encoding: the triangular matrix of similarities, the lines that are produced, and their variables.
-/
namespace RustSat
namespace Clustering
open Dimacs

/-! ### The triangular matrix -/

def tri (m : Nat) : Nat := m * (m - 1) / 2

theorem tri_succ (m : Nat) : tri (m + 1) = tri m + m := by
  have : (m + 1) * (m + 1 - 1) = m * (m - 1) + 2 * m := by
    cases m with
    | zero => rfl
    | succ m => simp only [Nat.add_sub_cancel]; ring
  simp only [tri, this]
  omega

theorem tri_mono {m n : Nat} (h : m ≤ n) : tri m ≤ tri n := by
  induction n with
  | zero => have : m = 0 := by omega
            subst this; exact Nat.le_refl _
  | succ n ih =>
    by_cases e : m = n + 1
    · subst e; exact Nat.le_refl _
    · have := ih (by omega)
      rw [tri_succ]
      omega

theorem simIdx_eq (i j n : Nat) : simIdx i j n = tri n - tri (n - i) + j - i - 1 := rfl

theorem offset_succ {i n : Nat} (h : i < n) : tri n - tri (n - (i + 1)) = tri n - tri (n - i) + (n - i - 1) := by
  have h1 := tri_succ (n - i - 1)
  rw [show n - i - 1 + 1 = n - i by omega] at h1
  have h2 := tri_mono (show n - i ≤ n by omega)
  rw [show n - (i + 1) = n - i - 1 by omega]
  omega

theorem simIdx_lt {i j n : Nat} (hij : i < j) (hj : j < n) : simIdx i j n < tri n := by
  have h1 := tri_succ (n - i - 1)
  rw [show n - i - 1 + 1 = n - i by omega] at h1
  have h2 := tri_mono (show n - i ≤ n by omega)
  rw [simIdx_eq]
  omega

theorem offset_mono {i i' n : Nat} (h : i ≤ i') : tri n - tri (n - i) ≤ tri n - tri (n - i') := by
  have := tri_mono (show n - i' ≤ n - i by omega)
  omega

theorem simIdx_lt_of_lt {i j i' j' n : Nat} (hij : i < j) (hj : j < n) (hij' : i' < j') (h : i < i') :
    simIdx i j n < simIdx i' j' n := by
  have h1 := offset_succ (show i < n by omega)
  have h2 := offset_mono (n := n) (show i + 1 ≤ i' by omega)
  rw [simIdx_eq, simIdx_eq]
  omega

theorem simIdx_inj {i j i' j' n : Nat} (hij : i < j) (hj : j < n) (hij' : i' < j') (hj' : j' < n)
    (h : simIdx i j n = simIdx i' j' n) : i = i' ∧ j = j' := by
  have hi : i = i' := by
    by_cases h1 : i < i'
    · have := simIdx_lt_of_lt hij hj hij' h1
      omega
    · by_cases h2 : i' < i
      · have := simIdx_lt_of_lt hij' hj' hij h2
        omega
      · omega
  subst hi
  rw [simIdx_eq, simIdx_eq] at h
  exact ⟨rfl, by omega⟩

theorem simIdx_last {n : Nat} (h : 2 ≤ n) : simIdx (n - 2) (n - 1) n + 1 = tri n := by
  have h1 := tri_mono (show 2 ≤ n from h)
  have h2 : tri 2 = 1 := rfl
  rw [simIdx_eq, show n - (n - 2) = 2 by omega, h2]
  omega

/-! ### Identifiers -/

section
variable {I : Type} [DecidableEq I]

theorem learnIdent_nodup {m : List I} (h : m.Nodup) (x : I) : (learnIdent m x).Nodup := by
  unfold learnIdent
  by_cases hx : x ∈ m
  · rw [if_pos hx]; exact h
  · rw [if_neg hx, List.nodup_append]
    refine ⟨h, by simp, ?_⟩
    intro a ha b hb e
    simp only [List.mem_singleton] at hb
    subst hb; subst e
    exact hx ha

theorem mem_learnIdent (m : List I) (x y : I) : y ∈ learnIdent m x ↔ y ∈ m ∨ y = x := by
  unfold learnIdent
  by_cases hx : x ∈ m
  · rw [if_pos hx]
    exact ⟨.inl, fun h => h.elim id fun e => e ▸ hx⟩
  · rw [if_neg hx]; simp

theorem identMap_spec (input : List (I × I × Sim)) : (identMap input).Nodup ∧ ∀ x, x ∈ identMap input ↔ Occurs input x := by
  have key : ∀ (l : List (I × I × Sim)) (m : List I), m.Nodup →
      (l.foldl (fun m e => learnIdent (learnIdent m e.1) e.2.1) m).Nodup ∧
      ∀ x, x ∈ l.foldl (fun m e => learnIdent (learnIdent m e.1) e.2.1) m ↔ x ∈ m ∨ Occurs l x := by
    intro l
    induction l with
    | nil => exact fun m hm => ⟨hm, fun x => by simp [Occurs]⟩
    | cons e l ih =>
      intro m hm
      obtain ⟨h1, h2⟩ := ih _ (learnIdent_nodup (learnIdent_nodup hm e.1) e.2.1)
      refine ⟨h1, fun x => ?_⟩
      rw [List.foldl_cons, h2 x, mem_learnIdent, mem_learnIdent]
      simp only [Occurs, List.mem_cons, exists_eq_or_imp]
      constructor
      · rintro (((h | h) | h) | h)
        · exact .inl h
        · exact .inr (.inl (.inl h.symm))
        · exact .inr (.inl (.inr h.symm))
        · exact .inr (.inr h)
      · rintro (h | (h | h) | h)
        · exact .inl (.inl (.inl h))
        · exact .inl (.inl (.inr h.symm))
        · exact .inl (.inr h.symm)
        · exact .inr h
  obtain ⟨h1, h2⟩ := key input [] .nil
  exact ⟨h1, fun x => by rw [identMap, h2 x]; simp⟩

/-! ### Similarities -/

theorem about_symm (x y : I) (e : I × I × Sim) : About x y e = About y x e := by
  unfold About
  apply decide_eq_decide.2
  exact ⟨Or.symm, Or.symm⟩

theorem simOf_symm (input : List (I × I × Sim)) (x y : I) : simOf input x y = simOf input y x := by
  unfold simOf
  rw [show About x y = About y x from funext (about_symm x y)]

/-- The similarity with another one for pairs without entry. -/
def simFrom (dflt : Sim) (input : List (I × I × Sim)) (x y : I) : Sim :=
  ((input.reverse.find? (About x y)).map (·.2.2)).getD dflt

theorem simFrom_cons (dflt : Sim) (e : I × I × Sim) (input : List (I × I × Sim)) (x y : I) :
    simFrom dflt (e :: input) x y = simFrom (if About x y e then e.2.2 else dflt) input x y := by
  unfold simFrom
  rw [List.reverse_cons, List.find?_append]
  cases h : input.reverse.find? (About x y) with
  | some z => rfl
  | none =>
    cases h1 : About x y e <;> simp [h1]

theorem simOf_occurs {input : List (I × I × Sim)} {x y : I} (h : simOf input x y ≠ .dontCare) :
    Occurs input x ∧ Occurs input y := by
  unfold simOf at h
  cases hf : input.reverse.find? (About x y) with
  | none => rw [hf] at h; exact absurd rfl h
  | some e =>
    have h1 := List.find?_some hf
    have h2 := List.mem_reverse.1 (List.mem_of_find?_eq_some hf)
    simp only [About, decide_eq_true_eq] at h1
    obtain ⟨h3, h4⟩ | ⟨h3, h4⟩ := h1
    · exact ⟨⟨e, h2, .inl h3⟩, ⟨e, h2, .inr h4⟩⟩
    · exact ⟨⟨e, h2, .inr h4⟩, ⟨e, h2, .inl h3⟩⟩

theorem simOf_mem {input : List (I × I × Sim)} {x y : I} (h : simOf input x y ≠ .dontCare) :
    ∃ e ∈ input, e.2.2 = simOf input x y := by
  unfold simOf at h ⊢
  cases hf : input.reverse.find? (About x y) with
  | none => rw [hf] at h; exact absurd rfl h
  | some e => exact ⟨e, List.mem_reverse.1 (List.mem_of_find?_eq_some hf), rfl⟩

/-- The matrix holds this similarity for every pair. -/
def Holds (ids : List I) (sims : List Sim) (cur : I → I → Sim) : Prop :=
  sims.length = tri ids.length ∧
  ∀ i j (hij : i < j) (hj : j < ids.length),
    sims[simIdx i j ids.length]? = some (cur (ids[i]'(by omega)) ids[j])

theorem Holds.set {ids : List I} (hn : ids.Nodup) {sims : List Sim} {cur : I → I → Sim} (h : Holds ids sims cur)
    {e : I × I × Sim} (h1 : e.1 ∈ ids) (h2 : e.2.1 ∈ ids) :
    ∃ sims', setSim ids sims e = some sims' ∧ Holds ids sims' fun x y => if About x y e then e.2.2 else cur x y := by
  have hi := List.idxOf_lt_length_of_mem h1
  have hj := List.idxOf_lt_length_of_mem h2
  have ei : ids[ids.idxOf e.1] = e.1 := List.getElem_idxOf hi
  have ej : ids[ids.idxOf e.2.1] = e.2.1 := List.getElem_idxOf hj
  have inj : ∀ {i j : Nat} (hi : i < ids.length) (hj : j < ids.length), ids[i] = ids[j] → i = j := fun hi hj e =>
    (List.Nodup.getElem_inj_iff hn).1 e
  unfold setSim
  generalize ids.idxOf e.1 = i0 at *
  generalize ids.idxOf e.2.1 = j0 at *
  by_cases he : i0 = j0
  · refine ⟨sims, by simp only [if_pos he], h.1, fun i j hij hj' => ?_⟩
    beta_reduce
    rw [h.2 i j hij hj', if_neg]
    subst he
    simp only [About, decide_eq_true_eq, ← ei, ← ej]
    rintro (⟨a1, a2⟩ | ⟨a1, a2⟩)
    · have := inj _ _ a1; have := inj _ _ a2; omega
    · have := inj _ _ a1; have := inj _ _ a2; omega
  · simp only [if_neg he]
    generalize hp : (if j0 < i0 then (j0, i0) else (i0, j0)) = p
    obtain ⟨p1, p2⟩ := p
    have hp' : p1 < p2 ∧ p2 < ids.length ∧ ((p1 = i0 ∧ p2 = j0) ∨ (p1 = j0 ∧ p2 = i0)) := by
      by_cases hc : j0 < i0
      · rw [if_pos hc] at hp; injection hp with a b; omega
      · rw [if_neg hc] at hp; injection hp with a b; omega
    obtain ⟨q1, q2, q3⟩ := hp'
    have hl := simIdx_lt q1 q2
    rw [← h.1] at hl
    refine ⟨_, if_pos hl, by rw [List.length_set, h.1], fun i j hij hj' => ?_⟩
    by_cases heq : i = p1 ∧ j = p2
    · obtain ⟨rfl, rfl⟩ := heq
      beta_reduce
      rw [List.getElem?_set_self hl, if_pos]
      simp only [About, decide_eq_true_eq, ← ei, ← ej]
      obtain ⟨rfl, rfl⟩ | ⟨rfl, rfl⟩ := q3
      · exact .inl ⟨rfl, rfl⟩
      · exact .inr ⟨rfl, rfl⟩
    · beta_reduce
      rw [List.getElem?_set_ne, h.2 i j hij hj', if_neg]
      · simp only [About, decide_eq_true_eq, ← ei, ← ej]
        rintro (⟨a1, a2⟩ | ⟨a1, a2⟩)
        · have := inj _ _ a1; have := inj _ _ a2; omega
        · have := inj _ _ a1; have := inj _ _ a2; omega
      · intro e
        have := simIdx_inj q1 q2 hij hj' e
        omega

theorem Holds.setAll {ids : List I} (hn : ids.Nodup) (input : List (I × I × Sim)) {sims : List Sim} {cur : I → I → Sim}
    (h : Holds ids sims cur) (hm : ∀ e ∈ input, e.1 ∈ ids ∧ e.2.1 ∈ ids) :
    ∃ sims', setSims ids input sims = some sims' ∧ Holds ids sims' fun x y => simFrom (cur x y) input x y := by
  induction input generalizing sims cur with
  | nil => exact ⟨sims, rfl, h⟩
  | cons e input ih =>
    obtain ⟨s1, g1, g2⟩ := h.set hn (hm e List.mem_cons_self).1 (hm e List.mem_cons_self).2
    obtain ⟨s2, g3, g4⟩ := ih g2 fun e he => hm e (List.mem_cons_of_mem _ he)
    refine ⟨s2, by rw [setSims, g1, Option.bind_some, g3], ?_⟩
    simpa only [simFrom_cons] using g4

theorem new_spec {input : List (I × I × Sim)} (h : 2 ≤ (identMap input).length) :
    ∃ d, Data.new input = some d ∧ d.n = (identMap input).length ∧ d.n < 2 ^ d.a ∧
      ∀ i j (hij : i < j) (hj : j < (identMap input).length),
        d.sim i j = some (simOf input ((identMap input)[i]'(by omega)) (identMap input)[j]) := by
  obtain ⟨hn, hm⟩ := identMap_spec input
  have h0 : Holds (identMap input)
      (List.replicate (simIdx ((identMap input).length - 2) ((identMap input).length - 1) (identMap input).length + 1) Sim.dontCare)
      fun _ _ => .dontCare := by
    rw [simIdx_last h]
    refine ⟨List.length_replicate, fun i j hij hj => ?_⟩
    rw [List.getElem?_replicate, if_pos (simIdx_lt hij hj)]
  obtain ⟨s, g1, g2⟩ := h0.setAll hn input fun e he =>
    ⟨(hm _).2 ⟨e, he, .inl rfl⟩, (hm _).2 ⟨e, he, .inr rfl⟩⟩
  refine ⟨⟨s, _, digits (identMap input).length 2⟩, ?_, rfl, digits_lt _ 2 (by omega), fun i j hij hj => g2.2 i j hij hj⟩
  unfold Data.new
  simp only [if_neg (show ¬ (identMap input).length < 2 by omega), g1, Option.map_some]

end

/-! ### The lines that are produced -/

/-- The loop goes from one position to another and produces these lines. -/
inductive Emits (d : Data) : Pos → List SymLine → Pos → Prop where
  | refl {s} : Emits d s [] s
  | goto {s s1 l s2} : d.step s = .goto s1 → Emits d s1 l s2 → Emits d s l s2
  | emit {s x s1 l s2} : d.step s = .emit x s1 → Emits d s1 l s2 → Emits d s (x :: l) s2

theorem Emits.trans {d : Data} {s s' s'' : Pos} {l l' : List SymLine} (h : Emits d s l s') (h' : Emits d s' l' s'') :
    Emits d s (l ++ l') s'' := by
  induction h with
  | refl => exact h'
  | goto e _ ih => exact .goto e (ih h')
  | emit e _ ih => exact .emit e (ih h')

/-- A loop over all pairs. -/
theorem pair_loop {d : Data} {P : Nat → Nat → Pos} {B : Nat × Nat → List SymLine} (hn : 0 < d.n)
    (hj : ∀ i j, i < d.n - 1 → j ≥ d.n → d.step (P i j) = .goto (P (i + 1) (i + 2)))
    (hb : ∀ i j, i < j → j < d.n → Emits d (P i j) (B (i, j)) (P i (j + 1))) :
    ∃ i j, i ≥ d.n - 1 ∧ Emits d (P 0 1) ((pairsOf (List.range d.n)).flatMap B) (P i j) := by
  have inner : ∀ m i j, i < j → i < d.n - 1 → j + m = d.n →
      Emits d (P i j) (((List.range' j m).map fun j => (i, j)).flatMap B) (P (i + 1) (i + 2)) := by
    intro m
    induction m with
    | zero => intro i j _ hi hm; exact .goto (hj i j hi (by omega)) .refl
    | succ m ih =>
      intro i j hij hi hm
      rw [List.range'_succ, List.map_cons, List.flatMap_cons]
      exact (hb i j hij (by omega)).trans (ih i (j + 1) (by omega) hi (by omega))
  have outer : ∀ m i, i + (m + 1) = d.n →
      ∃ i' j', i' ≥ d.n - 1 ∧ Emits d (P i (i + 1)) ((pairsOf (List.range' i (m + 1))).flatMap B) (P i' j') := by
    intro m
    induction m with
    | zero => intro i hi; exact ⟨i, i + 1, by omega, .refl⟩
    | succ m ih =>
      intro i hi
      obtain ⟨i', j', h1, h2⟩ := ih (i + 1) (by omega)
      refine ⟨i', j', h1, ?_⟩
      rw [List.range'_succ, pairsOf, List.flatMap_append]
      exact (inner (m + 1) i (i + 1) (by omega) (by omega) (by omega)).trans h2
  obtain ⟨i', j', h1, h2⟩ := outer (d.n - 1) 0 (by omega)
  refine ⟨i', j', h1, ?_⟩
  rw [List.range_eq_range', show d.n = d.n - 1 + 1 by omega]
  exact h2

/-- A loop that counts. -/
theorem count_loop {d : Data} {P : Nat → Pos} {L : Nat → List SymLine} {n : Nat}
    (h : ∀ k, k < n → Emits d (P k) (L k) (P (k + 1))) : Emits d (P 0) ((List.range n).flatMap L) (P n) := by
  have : ∀ m k, k + m = n → Emits d (P k) ((List.range' k m).flatMap L) (P n) := by
    intro m
    induction m with
    | zero =>
      intro k hk
      rw [show k = n by omega]
      exact .refl
    | succ m ih =>
      intro k hk
      rw [List.range'_succ, List.flatMap_cons]
      exact (h k (by omega)).trans (ih (k + 1) (by omega))
  rw [List.range_eq_range']
  exact this n 0 (by omega)

def needsEq : Sim → Bool
  | .dontCare => false
  | .mustLink => false
  | _ => true

def needsSame : Sim → Bool
  | .similar _ => true
  | .disSimilar _ => true
  | _ => false

def eqLine (i j k c : Nat) : SymLine := ⟨[.binary i k, .binary j k, .eq i j k], (eqLits i j k c).getD [], none⟩

def eqBlock (d : Data) (S : Nat → Nat → Sim) (p : Nat × Nat) : List SymLine :=
  if needsEq (S p.1 p.2) then
    (List.range d.a).flatMap fun k => (List.range 4).flatMap fun c => [eqLine p.1 p.2 k c] else []

def sameBlock (d : Data) (S : Nat → Nat → Sim) (p : Nat × Nat) : List SymLine :=
  if needsSame (S p.1 p.2) then (List.range (d.a + 1)).flatMap fun c => [d.sameLine p.1 p.2 c] else []

def mustBlock (d : Data) (S : Nat → Nat → Sim) (p : Nat × Nat) : List SymLine :=
  if S p.1 p.2 = .mustLink then (List.range (2 * d.a)).flatMap fun c => [mustLine p.1 p.2 c] else []

def cannotBlock (d : Data) (S : Nat → Nat → Sim) (p : Nat × Nat) : List SymLine :=
  if S p.1 p.2 = .cannotLink then [d.cannotLine p.1 p.2] else []

def similarLines (i j : Nat) : Sim → List SymLine
  | .similar w => [⟨[.same i j], [(.same i j, true)], some (w, 0)⟩]
  | _ => []

def disSimilarLines (i j : Nat) : Sim → List SymLine
  | .disSimilar w => [⟨[.same i j], [(.same i j, false)], some (w, 1)⟩]
  | _ => []

def similarBlock (S : Nat → Nat → Sim) (p : Nat × Nat) : List SymLine := similarLines p.1 p.2 (S p.1 p.2)

def disSimilarBlock (S : Nat → Nat → Sim) (p : Nat × Nat) : List SymLine := disSimilarLines p.1 p.2 (S p.1 p.2)

def allLines (d : Data) (S : Nat → Nat → Sim) : List SymLine :=
  (pairsOf (List.range d.n)).flatMap (eqBlock d S) ++ ((pairsOf (List.range d.n)).flatMap (sameBlock d S) ++
  ((pairsOf (List.range d.n)).flatMap (mustBlock d S) ++ ((pairsOf (List.range d.n)).flatMap (cannotBlock d S) ++
  ((pairsOf (List.range d.n)).flatMap (similarBlock S) ++ (pairsOf (List.range d.n)).flatMap (disSimilarBlock S)))))

theorem emits_all {d : Data} {S : Nat → Nat → Sim} (hn : 2 ≤ d.n) (hS : ∀ i j, i < j → j < d.n → d.sim i j = some (S i j)) :
    ∃ s, Emits d (.eq 0 1 0 0) (allLines d S) s ∧ d.step s = .stop := by
  have hn0 : 0 < d.n := by omega
  -- equalities
  have h1 : ∃ i j, i ≥ d.n - 1 ∧ Emits d (.eq 0 1 0 0) ((pairsOf (List.range d.n)).flatMap (eqBlock d S)) (.eq i j 0 0) := by
    refine pair_loop (P := fun i j => .eq i j 0 0) hn0 ?_ ?_
    · intro i j hi hj
      simp only [Data.step, Data.stepEq]
      rw [if_neg (by omega), if_pos hj]
    · intro i j hij hj
      have hs := hS i j hij hj
      by_cases ha : d.a = 0
      · have e : eqBlock d S (i, j) = [] := by simp [eqBlock, ha]
        rw [e]
        refine .goto ?_ .refl
        simp only [Data.step, Data.stepEq]
        rw [if_neg (by omega), if_neg (by omega), if_pos (by omega)]
      cases hN : needsEq (S i j) with
      | false =>
        have e : eqBlock d S (i, j) = [] := by simp [eqBlock, hN]
        rw [e]
        refine .goto ?_ .refl
        simp only [Data.step, Data.stepEq]
        rw [if_neg (by omega), if_neg (by omega), if_neg (by omega), if_neg (by omega), hs]
        cases h : S i j <;> rw [h] at hN <;> first | rfl | (simp [needsEq] at hN)
      | true =>
        have e : eqBlock d S (i, j) = (List.range d.a).flatMap fun k => (List.range 4).flatMap fun c => [eqLine i j k c] := by
          simp [eqBlock, hN]
        rw [e]
        have hl := count_loop (d := d) (P := fun k => .eq i j k 0) (n := d.a)
          (L := fun k => (List.range 4).flatMap fun c => [eqLine i j k c]) (fun k hk => by
            have := count_loop (d := d) (P := fun c => .eq i j k c) (n := 4) (L := fun c => [eqLine i j k c]) (fun c hc => by
              refine .emit ?_ .refl
              simp only [Data.step, Data.stepEq]
              rw [if_neg (by omega), if_neg (by omega), if_neg (by omega), if_neg (by omega), hs]
              have hc' : c = 0 ∨ c = 1 ∨ c = 2 ∨ c = 3 := by omega
              cases h : S i j <;> rw [h] at hN <;>
                first | (simp [needsEq] at hN; done) | (obtain rfl | rfl | rfl | rfl := hc' <;> rfl))
            have h5 : d.step (.eq i j k 4) = .goto (.eq i j (k + 1) 0) := by
              simp only [Data.step, Data.stepEq]
              rw [if_neg (by omega), if_neg (by omega), if_neg (by omega), if_pos (by omega)]
            have := this.trans (.goto h5 .refl)
            rwa [List.append_nil] at this)
        have h6 : d.step (.eq i j d.a 0) = .goto (.eq i (j + 1) 0 0) := by
          simp only [Data.step, Data.stepEq]
          rw [if_neg (by omega), if_neg (by omega), if_pos (by omega)]
        have := hl.trans (.goto h6 .refl)
        rwa [List.append_nil] at this
  -- same cluster
  have h2 : ∃ i j, i ≥ d.n - 1 ∧ Emits d (.same 0 1 0) ((pairsOf (List.range d.n)).flatMap (sameBlock d S)) (.same i j 0) := by
    refine pair_loop (P := fun i j => .same i j 0) hn0 ?_ ?_
    · intro i j hi hj
      simp only [Data.step, Data.stepSame]
      rw [if_neg (by omega), if_pos hj]
    · intro i j hij hj
      have hs := hS i j hij hj
      cases hN : needsSame (S i j) with
      | false =>
        have e : sameBlock d S (i, j) = [] := by simp [sameBlock, hN]
        rw [e]
        refine .goto ?_ .refl
        simp only [Data.step, Data.stepSame]
        rw [if_neg (by omega), if_neg (by omega), if_neg (by omega), hs]
        cases h : S i j <;> rw [h] at hN <;> first | rfl | (simp [needsSame] at hN)
      | true =>
        have e : sameBlock d S (i, j) = (List.range (d.a + 1)).flatMap fun c => [d.sameLine i j c] := by simp [sameBlock, hN]
        rw [e]
        have hl := count_loop (d := d) (P := fun c => .same i j c) (n := d.a + 1) (L := fun c => [d.sameLine i j c]) (fun c hc => by
          refine .emit ?_ .refl
          simp only [Data.step, Data.stepSame]
          rw [if_neg (by omega), if_neg (by omega), if_neg (by omega), hs]
          cases h : S i j <;> rw [h] at hN <;> first | rfl | (simp [needsSame] at hN))
        have h6 : d.step (.same i j (d.a + 1)) = .goto (.same i (j + 1) 0) := by
          simp only [Data.step, Data.stepSame]
          rw [if_neg (by omega), if_neg (by omega), if_pos (by omega)]
        have := hl.trans (.goto h6 .refl)
        rwa [List.append_nil] at this
  -- must links
  have h3 : ∃ i j, i ≥ d.n - 1 ∧ Emits d (.mustLink 0 1 0) ((pairsOf (List.range d.n)).flatMap (mustBlock d S)) (.mustLink i j 0) := by
    refine pair_loop (P := fun i j => .mustLink i j 0) hn0 ?_ ?_
    · intro i j hi hj
      simp only [Data.step, Data.stepMust]
      rw [if_neg (by omega), if_pos hj]
    · intro i j hij hj
      have hs := hS i j hij hj
      have h6 : d.step (.mustLink i j (2 * d.a)) = .goto (.mustLink i (j + 1) 0) := by
        simp only [Data.step, Data.stepMust]
        rw [if_neg (by omega), if_neg (by omega), if_pos (by omega)]
      by_cases hN : S i j = .mustLink
      · have e : mustBlock d S (i, j) = (List.range (2 * d.a)).flatMap fun c => [mustLine i j c] := by simp [mustBlock, hN]
        rw [e]
        have hl := count_loop (d := d) (P := fun c => .mustLink i j c) (n := 2 * d.a) (L := fun c => [mustLine i j c])
          (fun c hc => by
            refine .emit ?_ .refl
            simp only [Data.step, Data.stepMust]
            rw [if_neg (by omega), if_neg (by omega), if_neg (by omega), hs, hN])
        have := hl.trans (.goto h6 .refl)
        rwa [List.append_nil] at this
      · have e : mustBlock d S (i, j) = [] := by simp [mustBlock, hN]
        rw [e]
        by_cases ha : d.a = 0
        · rw [ha] at h6
          exact .goto h6 .refl
        refine .goto ?_ .refl
        simp only [Data.step, Data.stepMust]
        rw [if_neg (by omega), if_neg (by omega), if_neg (by omega), hs]
        cases h : S i j <;> first | rfl | exact absurd h hN
  -- cannot links
  have h4 : ∃ i j, i ≥ d.n - 1 ∧ Emits d (.cannotLink 0 1) ((pairsOf (List.range d.n)).flatMap (cannotBlock d S)) (.cannotLink i j) := by
    refine pair_loop (P := fun i j => .cannotLink i j) hn0 ?_ ?_
    · intro i j hi hj
      simp only [Data.step, Data.stepCannot]
      rw [if_neg (by omega), if_pos hj]
    · intro i j hij hj
      have hs := hS i j hij hj
      by_cases hN : S i j = .cannotLink
      · have e : cannotBlock d S (i, j) = [d.cannotLine i j] := by simp [cannotBlock, hN]
        rw [e]
        refine .emit ?_ .refl
        simp only [Data.step, Data.stepCannot]
        rw [if_neg (by omega), if_neg (by omega), hs, hN]
      · have e : cannotBlock d S (i, j) = [] := by simp [cannotBlock, hN]
        rw [e]
        refine .goto ?_ .refl
        simp only [Data.step, Data.stepCannot]
        rw [if_neg (by omega), if_neg (by omega), hs]
        cases h : S i j <;> first | rfl | exact absurd h hN
  -- soft clauses
  have h5 : ∃ i j, i ≥ d.n - 1 ∧ Emits d (.similar 0 1) ((pairsOf (List.range d.n)).flatMap (similarBlock S)) (.similar i j) := by
    refine pair_loop (P := fun i j => .similar i j) hn0 ?_ ?_
    · intro i j hi hj
      simp only [Data.step, Data.stepSimilar]
      rw [if_neg (by omega), if_pos hj]
    · intro i j hij hj
      have hs := hS i j hij hj
      unfold similarBlock
      cases h : S i j with
      | similar w =>
        rw [h] at hs
        refine .emit ?_ .refl
        simp only [Data.step, Data.stepSimilar]
        rw [if_neg (by omega), if_neg (by omega), hs]
      | _ =>
        rw [h] at hs
        refine .goto ?_ .refl
        simp only [Data.step, Data.stepSimilar]
        rw [if_neg (by omega), if_neg (by omega), hs]
  have h6 : ∃ i j, i ≥ d.n - 1 ∧
      Emits d (.disSimilar 0 1) ((pairsOf (List.range d.n)).flatMap (disSimilarBlock S)) (.disSimilar i j) := by
    refine pair_loop (P := fun i j => .disSimilar i j) hn0 ?_ ?_
    · intro i j hi hj
      simp only [Data.step, Data.stepDisSimilar]
      rw [if_neg (by omega), if_pos hj]
    · intro i j hij hj
      have hs := hS i j hij hj
      unfold disSimilarBlock
      cases h : S i j with
      | disSimilar w =>
        rw [h] at hs
        refine .emit ?_ .refl
        simp only [Data.step, Data.stepDisSimilar]
        rw [if_neg (by omega), if_neg (by omega), hs]
      | _ =>
        rw [h] at hs
        refine .goto ?_ .refl
        simp only [Data.step, Data.stepDisSimilar]
        rw [if_neg (by omega), if_neg (by omega), hs]
  obtain ⟨i1, j1, a1, b1⟩ := h1
  obtain ⟨i2, j2, a2, b2⟩ := h2
  obtain ⟨i3, j3, a3, b3⟩ := h3
  obtain ⟨i4, j4, a4, b4⟩ := h4
  obtain ⟨i5, j5, a5, b5⟩ := h5
  obtain ⟨i6, j6, a6, b6⟩ := h6
  refine ⟨.disSimilar i6 j6, ?_, by simp only [Data.step, Data.stepDisSimilar]; rw [if_pos a6]⟩
  refine b1.trans (.goto (by simp only [Data.step, Data.stepEq]; rw [if_pos a1]) ?_)
  refine b2.trans (.goto (by simp only [Data.step, Data.stepSame]; rw [if_pos a2]) ?_)
  refine b3.trans (.goto (by simp only [Data.step, Data.stepMust]; rw [if_pos a3]) ?_)
  refine b4.trans (.goto (by simp only [Data.step, Data.stepCannot]; rw [if_pos a4]) ?_)
  exact b5.trans (.goto (by simp only [Data.step, Data.stepSimilar]; rw [if_pos a5]) b6)

/-! ### Variables -/

def SymLine.clause (m : List VarId) (l : SymLine) : Clause := l.lits.map fun p => Lit.mk' (m.idxOf p.1) (!p.2)

def SymLine.line (m : List VarId) (l : SymLine) : McnfLine :=
  match l.soft with
  | none => .hard (l.clause m)
  | some (w, k) => .soft (l.clause m) w k

def finalVars (m : List VarId) (ls : List SymLine) : List VarId := ls.foldl (fun m l => l.ids.foldl allocId m) m

theorem resolve_eq (m : List VarId) (l : SymLine) :
    resolve m l = (l.line (l.ids.foldl allocId m), l.ids.foldl allocId m) := rfl

theorem allocId_prefix (m : List VarId) (v : VarId) : m <+: allocId m v := by
  unfold allocId
  by_cases h : v ∈ m
  · rw [if_pos h]; exact List.prefix_refl m
  · rw [if_neg h]; exact List.prefix_append _ _

theorem allocIds_prefix (ids m : List VarId) : m <+: ids.foldl allocId m := by
  induction ids generalizing m with
  | nil => exact List.prefix_refl m
  | cons v ids ih => exact (allocId_prefix m v).trans (ih _)

theorem finalVars_prefix (ls : List SymLine) (m : List VarId) : m <+: finalVars m ls := by
  induction ls generalizing m with
  | nil => exact List.prefix_refl m
  | cons l ls ih => exact (allocIds_prefix l.ids m).trans (ih _)

theorem mem_allocId (m : List VarId) (v x : VarId) : x ∈ allocId m v ↔ x ∈ m ∨ x = v := by
  unfold allocId
  by_cases h : v ∈ m
  · rw [if_pos h]
    exact ⟨.inl, fun h' => h'.elim id fun e => e ▸ h⟩
  · rw [if_neg h]; simp

theorem mem_allocIds (ids m : List VarId) (x : VarId) : x ∈ ids.foldl allocId m ↔ x ∈ m ∨ x ∈ ids := by
  induction ids generalizing m with
  | nil => simp
  | cons v ids ih => rw [List.foldl_cons, ih, mem_allocId, List.mem_cons, or_assoc]

theorem mem_finalVars (ls : List SymLine) (m : List VarId) (x : VarId) :
    x ∈ finalVars m ls ↔ x ∈ m ∨ ∃ l ∈ ls, x ∈ l.ids := by
  unfold finalVars
  induction ls generalizing m with
  | nil => simp
  | cons l ls ih =>
    rw [List.foldl_cons, ih, mem_allocIds]
    simp only [List.mem_cons, exists_eq_or_imp, or_assoc]

theorem allocId_nodup {m : List VarId} (h : m.Nodup) (v : VarId) : (allocId m v).Nodup := by
  unfold allocId
  by_cases hx : v ∈ m
  · rw [if_pos hx]; exact h
  · rw [if_neg hx, List.nodup_append]
    refine ⟨h, by simp, ?_⟩
    intro a ha b hb e
    simp only [List.mem_singleton] at hb
    subst hb; subst e
    exact hx ha

theorem allocIds_nodup (ids : List VarId) {m : List VarId} (h : m.Nodup) : (ids.foldl allocId m).Nodup := by
  induction ids generalizing m with
  | nil => exact h
  | cons v ids ih => exact ih (allocId_nodup h v)

theorem finalVars_nodup (ls : List SymLine) {m : List VarId} (h : m.Nodup) : (finalVars m ls).Nodup := by
  induction ls generalizing m with
  | nil => exact h
  | cons l ls ih => exact ih (allocIds_nodup l.ids h)

/-- All identifiers of a clause are given variables. -/
def SymLine.Closed (l : SymLine) : Prop := ∀ p ∈ l.lits, p.1 ∈ l.ids

theorem SymLine.line_prefix {l : SymLine} {m m' : List VarId} (h : m <+: m') (hm : ∀ p ∈ l.lits, p.1 ∈ m) :
    l.line m' = l.line m := by
  have : l.clause m' = l.clause m := by
    unfold SymLine.clause
    apply List.map_congr_left
    intro p hp
    obtain ⟨t, rfl⟩ := h
    rw [List.idxOf_append_of_mem (hm p hp)]
  unfold SymLine.line
  rw [this]

theorem Emits.run {d : Data} {s s' : Pos} {ls : List SymLine} (h : Emits d s ls s') (he : d.step s' = .stop)
    (hc : ∀ l ∈ ls, l.Closed) (m : List VarId) :
    ∃ fuel, d.run fuel m s = .done (ls.map fun l => l.line (finalVars m ls)) := by
  induction h generalizing m with
  | refl => exact ⟨1, by simp only [Data.run, he]; rfl⟩
  | goto e _ ih =>
    obtain ⟨fuel, h⟩ := ih he hc m
    exact ⟨fuel + 1, by simp only [Data.run, e, h]⟩
  | @emit s x s1 l s2 e _ ih =>
    obtain ⟨fuel, h⟩ := ih he (fun l hl => hc l (List.mem_cons_of_mem _ hl)) (x.ids.foldl allocId m)
    refine ⟨fuel + 1, ?_⟩
    simp only [Data.run, e, resolve_eq, h, List.map_cons]
    have e1 : finalVars m (x :: l) = finalVars (x.ids.foldl allocId m) l := rfl
    rw [e1, SymLine.line_prefix (finalVars_prefix l _)]
    intro p hp
    exact (mem_allocIds _ _ _).2 (.inr (hc x List.mem_cons_self p hp))

end Clustering
end RustSat
