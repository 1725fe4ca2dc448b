import Verif.Lemmas.Clustering
import Verif.Props.Dimacs
import Mathlib.Data.List.Perm.Subperm
/-
What the clauses of the clustering encoding say.
-/
namespace RustSat
namespace Clustering
open Dimacs DimacsSpec

/-! ### Pairs -/

theorem mem_pairsOf_range' {m s : Nat} {p : Nat × Nat} : p ∈ pairsOf (List.range' s m) ↔ s ≤ p.1 ∧ p.1 < p.2 ∧ p.2 < s + m := by
  induction m generalizing s with
  | zero => simp [pairsOf]; omega
  | succ m ih =>
    rw [List.range'_succ, pairsOf, List.mem_append, ih, List.mem_map]
    constructor
    · rintro (⟨y, hy, rfl⟩ | h)
      · rw [List.mem_range'_1] at hy
        simp only
        omega
      · omega
    · intro h
      by_cases e : p.1 = s
      · exact .inl ⟨p.2, by rw [List.mem_range'_1]; omega, by rw [← e]⟩
      · exact .inr (by omega)

theorem mem_pairsOf_range {n : Nat} {p : Nat × Nat} : p ∈ pairsOf (List.range n) ↔ p.1 < p.2 ∧ p.2 < n := by
  rw [List.range_eq_range', mem_pairsOf_range']
  omega

theorem pairsOf_map {α β : Type} (f : α → β) (l : List α) : pairsOf (l.map f) = (pairsOf l).map fun p => (f p.1, f p.2) := by
  induction l with
  | nil => rfl
  | cons x l ih => simp only [List.map_cons, pairsOf, ih, List.map_append, List.map_map, Function.comp_def]

/-! ### Meaning -/

def SymLine.sat (ν : VarId → Bool) (l : SymLine) : Prop := ∃ p ∈ l.lits, ν p.1 = p.2

instance (ν : VarId → Bool) (l : SymLine) : Decidable (l.sat ν) := inferInstanceAs (Decidable (∃ p ∈ l.lits, _))

theorem SymLine.sat_clause (l : SymLine) (m : List VarId) (a : Asg) :
    Clause.sat a (l.clause m) ↔ l.sat fun v => a (m.idxOf v) := by
  have e : ∀ p : VarId × Bool, (Lit.mk' (m.idxOf p.1) (!p.2)).holds a = true ↔ a (m.idxOf p.1) = p.2 := by
    rintro ⟨v, b⟩
    cases b
    · show (Lit.negOf _).holds a = true ↔ _
      rw [Lit.holds_negOf]
      simp
    · show (Lit.pos _).holds a = true ↔ _
      rw [Lit.holds_pos]
  unfold SymLine.clause SymLine.sat Clause.sat
  constructor
  · rintro ⟨l, hl, h⟩
    obtain ⟨p, hp, rfl⟩ := List.mem_map.1 hl
    exact ⟨p, hp, (e p).1 h⟩
  · rintro ⟨p, hp, h⟩
    exact ⟨_, List.mem_map.2 ⟨p, hp, rfl⟩, (e p).2 h⟩

/-- The cost of a line for an objective. -/
def SymLine.cost (ν : VarId → Bool) (k : Nat) (l : SymLine) : Nat :=
  match l.soft with
  | none => 0
  | some (w, k') => if k' = k ∧ ¬ l.sat ν then w else 0

theorem falsified_iff (a : Asg) (c : Clause) : Clause.falsified a c = true ↔ ¬ Clause.sat a c := by
  simp [Clause.falsified, Clause.sat]

theorem hards_lines (ls : List SymLine) (m : List VarId) :
    moHards ((ls.map fun l => l.line m).map McnfLine.datum) = (ls.filter fun l => l.soft.isNone).map fun l => l.clause m := by
  induction ls with
  | nil => rfl
  | cons l ls ih =>
    simp only [List.map_cons]
    cases h : l.soft with
    | none =>
      rw [List.filter_cons_of_pos (by simp [h]), List.map_cons, ← ih]
      simp only [SymLine.line, h, McnfLine.datum, moHards]
    | some q =>
      rw [List.filter_cons_of_neg (by simp [h]), ← ih]
      simp only [SymLine.line, h, McnfLine.datum, moHards]

theorem softs_lines (ls : List SymLine) (m : List VarId) (a : Asg) (k : Nat) :
    clsCost a (moSofts (k + 1) ((ls.map fun l => l.line m).map McnfLine.datum)) =
      (ls.map (SymLine.cost (fun v => a (m.idxOf v)) k)).sum := by
  induction ls with
  | nil => rfl
  | cons l ls ih =>
    simp only [List.map_cons, List.sum_cons]
    cases h : l.soft with
    | none =>
      rw [← ih]
      simp only [SymLine.line, h, McnfLine.datum, moSofts, SymLine.cost, Nat.zero_add]
    | some q =>
      obtain ⟨w, k'⟩ := q
      rw [← ih]
      simp only [SymLine.line, h, McnfLine.datum, moSofts, SymLine.cost]
      by_cases hk : k' = k
      · rw [if_pos (by omega), clsCost]
        congr 1
        by_cases hs : Clause.sat a (l.clause m)
        · rw [if_neg fun hf => (falsified_iff a _).1 hf hs, if_neg fun hf => hf.2 ((l.sat_clause m a).1 hs)]
        · rw [if_pos ((falsified_iff a _).2 hs), if_pos ⟨hk, fun hf => hs ((l.sat_clause m a).2 hf)⟩]
      · rw [if_neg (by omega), if_neg fun h => hk h.1, Nat.zero_add]

/-- The same for a single objective, if there are no objectives other than 0 and 1. -/
theorem softs_single (ls : List SymLine) (m : List VarId) (a : Asg) (h01 : ∀ l ∈ ls, ∀ w k, l.soft = some (w, k) → k = 0 ∨ k = 1) :
    clsCost a (softs (((ls.map fun l => l.line m).map mcnfToWcnf).map WcnfLine.datum)) =
      (ls.map (SymLine.cost (fun v => a (m.idxOf v)) 0)).sum + (ls.map (SymLine.cost (fun v => a (m.idxOf v)) 1)).sum := by
  induction ls with
  | nil => rfl
  | cons l ls ih =>
    have ih := ih fun l hl => h01 l (List.mem_cons_of_mem _ hl)
    simp only [List.map_cons, List.sum_cons]
    cases h : l.soft with
    | none =>
      simp only [SymLine.line, h, mcnfToWcnf, WcnfLine.datum, softs, SymLine.cost, Nat.zero_add]
      exact ih
    | some q =>
      obtain ⟨w, k'⟩ := q
      have hk := h01 l List.mem_cons_self w k' h
      have e : l.line m = .soft (l.clause m) w k' := by simp only [SymLine.line, h]
      simp only [e, h, mcnfToWcnf, WcnfLine.datum, softs, SymLine.cost, clsCost]
      rw [ih]
      by_cases hs : Clause.sat a (l.clause m)
      · rw [if_neg fun hf => (falsified_iff a _).1 hf hs, if_neg fun hf => hf.2 ((l.sat_clause m a).1 hs),
          if_neg fun hf => hf.2 ((l.sat_clause m a).1 hs)]
        omega
      · have hs' : ¬ l.sat fun v => a (m.idxOf v) := fun hf => hs ((l.sat_clause m a).2 hf)
        rw [if_pos ((falsified_iff a _).2 hs)]
        obtain rfl | rfl := hk
        · rw [if_pos ⟨rfl, hs'⟩, if_neg (by omega)]
          omega
        · rw [if_neg (by omega), if_pos ⟨rfl, hs'⟩]
          omega

theorem hards_single (ls : List SymLine) (m : List VarId) :
    hards (((ls.map fun l => l.line m).map mcnfToWcnf).map WcnfLine.datum) =
      (ls.filter fun l => l.soft.isNone).map fun l => l.clause m := by
  induction ls with
  | nil => rfl
  | cons l ls ih =>
    simp only [List.map_cons]
    cases h : l.soft with
    | none =>
      rw [List.filter_cons_of_pos (by simp [h]), List.map_cons, ← ih]
      simp only [SymLine.line, h, mcnfToWcnf, WcnfLine.datum, hards]
    | some q =>
      rw [List.filter_cons_of_neg (by simp [h]), ← ih]
      simp only [SymLine.line, h, mcnfToWcnf, WcnfLine.datum, hards]

/-! ### The clauses of a pair -/

theorem mem_block {α : Type} {ps : List α} {B : α → List SymLine} {P : SymLine → Prop} :
    (∀ l ∈ ps.flatMap B, P l) ↔ ∀ p ∈ ps, ∀ l ∈ B p, P l := by
  simp only [List.mem_flatMap]
  exact ⟨fun h p hp l hl => h l ⟨p, hp, hl⟩, fun h l ⟨p, hp, hl⟩ => h p hp l hl⟩

/-- What the hard clauses of a pair say. -/
def PairOk (a : Nat) (ν : VarId → Bool) (s : Sim) (i j : Nat) : Prop :=
  (needsEq s = true → ∀ k, k < a → (ν (.eq i j k) = true ↔ ν (.binary i k) = ν (.binary j k))) ∧
  (needsSame s = true → (ν (.same i j) = true ↔ ∀ k, k < a → ν (.eq i j k) = true)) ∧
  (s = .mustLink → ∀ k, k < a → ν (.binary i k) = ν (.binary j k)) ∧
  (s = .cannotLink → ∃ k, k < a ∧ ν (.eq i j k) = false)

theorem eqLines_sat (ν : VarId → Bool) (i j k : Nat) :
    (∀ c, c < 4 → (eqLine i j k c).sat ν) ↔ (ν (.eq i j k) = true ↔ ν (.binary i k) = ν (.binary j k)) := by
  have e : (∀ c, c < 4 → (eqLine i j k c).sat ν) ↔
      (eqLine i j k 0).sat ν ∧ (eqLine i j k 1).sat ν ∧ (eqLine i j k 2).sat ν ∧ (eqLine i j k 3).sat ν := by
    constructor
    · exact fun h => ⟨h 0 (by omega), h 1 (by omega), h 2 (by omega), h 3 (by omega)⟩
    · rintro ⟨h0, h1, h2, h3⟩ c hc
      have hc' : c = 0 ∨ c = 1 ∨ c = 2 ∨ c = 3 := by omega
      obtain rfl | rfl | rfl | rfl := hc' <;> assumption
  rw [e]
  simp only [eqLine, eqLits, SymLine.sat, Option.getD_some, List.mem_cons, List.not_mem_nil, or_false, exists_eq_or_imp,
    exists_eq_left]
  cases ν (.eq i j k) <;> cases ν (.binary i k) <;> cases ν (.binary j k) <;> simp

theorem sameLines_sat (d : Data) (ν : VarId → Bool) (i j : Nat) :
    (∀ c, c < d.a + 1 → (d.sameLine i j c).sat ν) ↔ (ν (.same i j) = true ↔ ∀ k, k < d.a → ν (.eq i j k) = true) := by
  have h1 : ∀ c, c < d.a → ((d.sameLine i j c).sat ν ↔ (ν (.same i j) = true → ν (.eq i j c) = true)) := by
    intro c hc
    simp only [Data.sameLine, if_pos hc, SymLine.sat, List.mem_cons, List.not_mem_nil, or_false, exists_eq_or_imp, exists_eq_left]
    cases ν (.same i j) <;> simp
  have h2 : (d.sameLine i j d.a).sat ν ↔ ((∀ k, k < d.a → ν (.eq i j k) = true) → ν (.same i j) = true) := by
    simp only [Data.sameLine, if_neg (show ¬ d.a < d.a by omega), SymLine.sat, List.mem_append, List.mem_map, List.mem_range,
      List.mem_singleton]
    constructor
    · rintro ⟨p, ⟨k, hk, rfl⟩ | rfl, hp⟩ h
      · rw [h k hk] at hp; cases hp
      · exact hp
    · intro h
      by_cases hall : ∀ k, k < d.a → ν (.eq i j k) = true
      · exact ⟨_, .inr rfl, h hall⟩
      · obtain ⟨k, hk⟩ := Classical.not_forall.1 hall
        obtain ⟨hk, hk'⟩ := Classical.not_imp.1 hk
        exact ⟨_, .inl ⟨k, hk, rfl⟩, Bool.eq_false_iff.2 hk'⟩
  constructor
  · intro h
    exact ⟨fun hs k hk => (h1 k hk).1 (h k (by omega)) hs, h2.1 (h d.a (by omega))⟩
  · intro h c hc
    by_cases e : c < d.a
    · exact (h1 c e).2 fun hs => h.1 hs c e
    · rw [show c = d.a by omega]
      exact h2.2 h.2

theorem mustLines_sat (a : Nat) (ν : VarId → Bool) (i j : Nat) :
    (∀ c, c < 2 * a → (mustLine i j c).sat ν) ↔ ∀ k, k < a → ν (.binary i k) = ν (.binary j k) := by
  have h0 : ∀ k, (mustLine i j (2 * k)).sat ν ↔ (ν (.binary i k) = true → ν (.binary j k) = true) := by
    intro k
    have e1 : 2 * k / 2 = k := by omega
    have e2 : 2 * k % 2 = 0 := by omega
    simp only [mustLine, e1, e2, if_true, SymLine.sat, List.mem_cons, List.not_mem_nil, or_false, exists_eq_or_imp, exists_eq_left]
    cases ν (.binary i k) <;> simp
  have h1 : ∀ k, (mustLine i j (2 * k + 1)).sat ν ↔ (ν (.binary j k) = true → ν (.binary i k) = true) := by
    intro k
    have e1 : (2 * k + 1) / 2 = k := by omega
    have e2 : ¬ (2 * k + 1) % 2 = 0 := by omega
    simp only [mustLine, e1, e2, if_false, SymLine.sat, List.mem_cons, List.not_mem_nil, or_false, exists_eq_or_imp, exists_eq_left]
    cases ν (.binary j k) <;> simp
  constructor
  · intro h k hk
    exact Bool.eq_iff_iff.2 ⟨(h0 k).1 (h _ (by omega)), (h1 k).1 (h _ (by omega))⟩
  · intro h c hc
    by_cases e : c % 2 = 0
    · rw [show c = 2 * (c / 2) by omega, h0, h (c / 2) (by omega)]
      exact id
    · rw [show c = 2 * (c / 2) + 1 by omega, h1, h (c / 2) (by omega)]
      exact id

theorem cannotLine_sat (d : Data) (ν : VarId → Bool) (i j : Nat) :
    (d.cannotLine i j).sat ν ↔ ∃ k, k < d.a ∧ ν (.eq i j k) = false := by
  simp only [Data.cannotLine, SymLine.sat, List.mem_map, List.mem_range]
  constructor
  · rintro ⟨p, ⟨k, hk, rfl⟩, h⟩
    exact ⟨k, hk, h⟩
  · rintro ⟨k, hk, h⟩
    exact ⟨_, ⟨k, hk, rfl⟩, h⟩

theorem eqBlock_sat (d : Data) (S : Nat → Nat → Sim) (ν : VarId → Bool) (p : Nat × Nat) :
    (∀ l ∈ eqBlock d S p, l.sat ν) ↔ (needsEq (S p.1 p.2) = true →
      ∀ k, k < d.a → (ν (.eq p.1 p.2 k) = true ↔ ν (.binary p.1 k) = ν (.binary p.2 k))) := by
  unfold eqBlock
  cases h : needsEq (S p.1 p.2) with
  | false => simp
  | true =>
    simp only [if_true, forall_const, mem_block, List.mem_range, List.mem_singleton, forall_eq]
    exact forall_congr' fun k => imp_congr_right fun _ => eqLines_sat ν _ _ k

theorem sameBlock_sat (d : Data) (S : Nat → Nat → Sim) (ν : VarId → Bool) (p : Nat × Nat) :
    (∀ l ∈ sameBlock d S p, l.sat ν) ↔ (needsSame (S p.1 p.2) = true →
      (ν (.same p.1 p.2) = true ↔ ∀ k, k < d.a → ν (.eq p.1 p.2 k) = true)) := by
  unfold sameBlock
  cases h : needsSame (S p.1 p.2) with
  | false => simp
  | true =>
    simp only [if_true, forall_const, mem_block, List.mem_range, List.mem_singleton, forall_eq]
    exact sameLines_sat d ν _ _

theorem mustBlock_sat (d : Data) (S : Nat → Nat → Sim) (ν : VarId → Bool) (p : Nat × Nat) :
    (∀ l ∈ mustBlock d S p, l.sat ν) ↔ (S p.1 p.2 = .mustLink →
      ∀ k, k < d.a → ν (.binary p.1 k) = ν (.binary p.2 k)) := by
  unfold mustBlock
  by_cases h : S p.1 p.2 = .mustLink
  · rw [if_pos h]
    simp only [h, forall_const, mem_block, List.mem_range, List.mem_singleton, forall_eq]
    exact mustLines_sat d.a ν _ _
  · rw [if_neg h]
    exact ⟨fun _ h' => absurd h' h, fun _ l hl => nomatch hl⟩

theorem cannotBlock_sat (d : Data) (S : Nat → Nat → Sim) (ν : VarId → Bool) (p : Nat × Nat) :
    (∀ l ∈ cannotBlock d S p, l.sat ν) ↔ (S p.1 p.2 = .cannotLink →
      ∃ k, k < d.a ∧ ν (.eq p.1 p.2 k) = false) := by
  unfold cannotBlock
  by_cases h : S p.1 p.2 = .cannotLink
  · rw [if_pos h]
    simp only [h, forall_const, List.mem_singleton, forall_eq]
    exact cannotLine_sat d ν _ _
  · rw [if_neg h]
    exact ⟨fun _ h' => absurd h' h, fun _ l hl => nomatch hl⟩

/-- The lines of the first four kinds are hard, those of the last two kinds soft. -/
theorem eqBlock_hard {d : Data} {S : Nat → Nat → Sim} {p : Nat × Nat} : ∀ l ∈ eqBlock d S p, l.soft = none := by
  intro l hl
  unfold eqBlock at hl
  by_cases h : needsEq (S p.1 p.2) = true
  · rw [if_pos h] at hl
    simp only [List.mem_flatMap, List.mem_singleton] at hl
    obtain ⟨k, _, c, _, rfl⟩ := hl
    rfl
  · rw [if_neg h] at hl
    cases hl

theorem sameBlock_hard {d : Data} {S : Nat → Nat → Sim} {p : Nat × Nat} : ∀ l ∈ sameBlock d S p, l.soft = none := by
  intro l hl
  unfold sameBlock at hl
  by_cases h : needsSame (S p.1 p.2) = true
  · rw [if_pos h] at hl
    simp only [List.mem_flatMap, List.mem_singleton] at hl
    obtain ⟨c, _, rfl⟩ := hl
    unfold Data.sameLine
    by_cases hc : c < d.a
    · rw [if_pos hc]
    · rw [if_neg hc]
  · rw [if_neg h] at hl
    cases hl

theorem mustBlock_hard {d : Data} {S : Nat → Nat → Sim} {p : Nat × Nat} : ∀ l ∈ mustBlock d S p, l.soft = none := by
  intro l hl
  unfold mustBlock at hl
  by_cases h : S p.1 p.2 = .mustLink
  · rw [if_pos h] at hl
    simp only [List.mem_flatMap, List.mem_singleton] at hl
    obtain ⟨c, _, rfl⟩ := hl
    rfl
  · rw [if_neg h] at hl
    cases hl

theorem cannotBlock_hard {d : Data} {S : Nat → Nat → Sim} {p : Nat × Nat} : ∀ l ∈ cannotBlock d S p, l.soft = none := by
  intro l hl
  unfold cannotBlock at hl
  by_cases h : S p.1 p.2 = .cannotLink
  · rw [if_pos h, List.mem_singleton] at hl
    subst hl
    rfl
  · rw [if_neg h] at hl
    cases hl

theorem similarBlock_soft {S : Nat → Nat → Sim} {p : Nat × Nat} : ∀ l ∈ similarBlock S p,
    ∃ w, S p.1 p.2 = .similar w ∧ l = ⟨[.same p.1 p.2], [(.same p.1 p.2, true)], some (w, 0)⟩ := by
  intro l hl
  unfold similarBlock at hl
  cases h : S p.1 p.2 with
  | similar w => rw [h, similarLines, List.mem_singleton] at hl; exact ⟨w, rfl, hl⟩
  | _ => rw [h] at hl; cases hl

theorem disSimilarBlock_soft {S : Nat → Nat → Sim} {p : Nat × Nat} : ∀ l ∈ disSimilarBlock S p,
    ∃ w, S p.1 p.2 = .disSimilar w ∧ l = ⟨[.same p.1 p.2], [(.same p.1 p.2, false)], some (w, 1)⟩ := by
  intro l hl
  unfold disSimilarBlock at hl
  cases h : S p.1 p.2 with
  | disSimilar w => rw [h, disSimilarLines, List.mem_singleton] at hl; exact ⟨w, rfl, hl⟩
  | _ => rw [h] at hl; cases hl

theorem mem_allLines {d : Data} {S : Nat → Nat → Sim} {l : SymLine} : l ∈ allLines d S ↔
    ∃ p ∈ pairsOf (List.range d.n), l ∈ eqBlock d S p ∨ l ∈ sameBlock d S p ∨ l ∈ mustBlock d S p ∨ l ∈ cannotBlock d S p ∨
      l ∈ similarBlock S p ∨ l ∈ disSimilarBlock S p := by
  simp only [allLines, List.mem_append, List.mem_flatMap]
  constructor
  · rintro (⟨p, h, h'⟩ | ⟨p, h, h'⟩ | ⟨p, h, h'⟩ | ⟨p, h, h'⟩ | ⟨p, h, h'⟩ | ⟨p, h, h'⟩)
    · exact ⟨p, h, .inl h'⟩
    · exact ⟨p, h, .inr (.inl h')⟩
    · exact ⟨p, h, .inr (.inr (.inl h'))⟩
    · exact ⟨p, h, .inr (.inr (.inr (.inl h')))⟩
    · exact ⟨p, h, .inr (.inr (.inr (.inr (.inl h'))))⟩
    · exact ⟨p, h, .inr (.inr (.inr (.inr (.inr h'))))⟩
  · rintro ⟨p, h, h' | h' | h' | h' | h' | h'⟩
    · exact .inl ⟨p, h, h'⟩
    · exact .inr (.inl ⟨p, h, h'⟩)
    · exact .inr (.inr (.inl ⟨p, h, h'⟩))
    · exact .inr (.inr (.inr (.inl ⟨p, h, h'⟩)))
    · exact .inr (.inr (.inr (.inr (.inl ⟨p, h, h'⟩))))
    · exact .inr (.inr (.inr (.inr (.inr ⟨p, h, h'⟩))))

/-- The hard clauses are satisfied iff those of every pair are. -/
theorem hard_sat (d : Data) (S : Nat → Nat → Sim) (ν : VarId → Bool) :
    (∀ l ∈ (allLines d S).filter (fun l => l.soft.isNone), l.sat ν) ↔
      ∀ p ∈ pairsOf (List.range d.n), PairOk d.a ν (S p.1 p.2) p.1 p.2 := by
  have e : ∀ p, PairOk d.a ν (S p.1 p.2) p.1 p.2 ↔ (∀ l ∈ eqBlock d S p, l.sat ν) ∧ (∀ l ∈ sameBlock d S p, l.sat ν) ∧
      (∀ l ∈ mustBlock d S p, l.sat ν) ∧ (∀ l ∈ cannotBlock d S p, l.sat ν) := by
    intro p
    rw [eqBlock_sat, sameBlock_sat, mustBlock_sat, cannotBlock_sat]
    rfl
  simp only [e, List.mem_filter, mem_allLines]
  constructor
  · intro h p hp
    refine ⟨fun l hl => h l ⟨⟨p, hp, .inl hl⟩, ?_⟩, fun l hl => h l ⟨⟨p, hp, .inr (.inl hl)⟩, ?_⟩,
      fun l hl => h l ⟨⟨p, hp, .inr (.inr (.inl hl))⟩, ?_⟩, fun l hl => h l ⟨⟨p, hp, .inr (.inr (.inr (.inl hl)))⟩, ?_⟩⟩
    · rw [eqBlock_hard l hl]; rfl
    · rw [sameBlock_hard l hl]; rfl
    · rw [mustBlock_hard l hl]; rfl
    · rw [cannotBlock_hard l hl]; rfl
  · rintro h l ⟨⟨p, hp, h' | h' | h' | h' | h' | h'⟩, hn⟩
    · exact (h p hp).1 l h'
    · exact (h p hp).2.1 l h'
    · exact (h p hp).2.2.1 l h'
    · exact (h p hp).2.2.2 l h'
    · obtain ⟨w, _, rfl⟩ := similarBlock_soft l h'
      cases hn
    · obtain ⟨w, _, rfl⟩ := disSimilarBlock_soft l h'
      cases hn

/-! ### Costs -/

theorem sum_flatMap {α : Type} (ps : List α) (B : α → List SymLine) (f : SymLine → Nat) :
    ((ps.flatMap B).map f).sum = (ps.map fun p => ((B p).map f).sum).sum := by
  induction ps with
  | nil => rfl
  | cons p ps ih => simp [ih]

theorem sum_zero {B : List SymLine} {ν : VarId → Bool} {k : Nat} (h : ∀ l ∈ B, l.soft = none) :
    (B.map (SymLine.cost ν k)).sum = 0 := by
  induction B with
  | nil => rfl
  | cons l B ih =>
    rw [List.map_cons, List.sum_cons, ih fun l hl => h l (List.mem_cons_of_mem _ hl)]
    simp only [SymLine.cost, h l List.mem_cons_self]

theorem sum_add {α : Type} (ps : List α) (f g : α → Nat) :
    (ps.map f).sum + (ps.map g).sum = (ps.map fun p => f p + g p).sum := by
  induction ps with
  | nil => rfl
  | cons p ps ih =>
    simp only [List.map_cons, List.sum_cons, ← ih]
    omega

theorem cost_all (d : Data) (S : Nat → Nat → Sim) (ν : VarId → Bool) (k : Nat) :
    ((allLines d S).map (SymLine.cost ν k)).sum =
      ((pairsOf (List.range d.n)).map fun p => pairCost k (S p.1 p.2) (ν (.same p.1 p.2))).sum := by
  have z : ∀ {B : Nat × Nat → List SymLine}, (∀ p, ∀ l ∈ B p, l.soft = none) →
      (((pairsOf (List.range d.n)).flatMap B).map (SymLine.cost ν k)).sum = 0 := by
    intro B h
    apply sum_zero
    intro l hl
    obtain ⟨p, _, hl⟩ := List.mem_flatMap.1 hl
    exact h p l hl
  simp only [allLines, List.map_append, List.sum_append]
  rw [z fun p => eqBlock_hard, z fun p => sameBlock_hard, z fun p => mustBlock_hard, z fun p => cannotBlock_hard,
    sum_flatMap, sum_flatMap]
  simp only [Nat.zero_add]
  rw [sum_add]
  congr 1
  apply List.map_congr_left
  intro p _
  unfold similarBlock disSimilarBlock
  cases h : S p.1 p.2 with
  | similar w =>
    simp only [similarLines, disSimilarLines, List.map_cons, List.map_nil, List.sum_cons, List.sum_nil, SymLine.cost, SymLine.sat,
      List.mem_singleton, exists_eq_left, pairCost, Nat.add_zero]
    cases ν (.same p.1 p.2) <;> simp [eq_comm]
  | disSimilar w =>
    simp only [similarLines, disSimilarLines, List.map_cons, List.map_nil, List.sum_cons, List.sum_nil, SymLine.cost, SymLine.sat,
      List.mem_singleton, exists_eq_left, pairCost, Nat.add_zero, Nat.zero_add]
    cases ν (.same p.1 p.2) <;> simp [eq_comm]
  | _ => rfl

/-! ### Labels -/

def ofBits (b : Nat → Bool) : Nat → Nat
  | 0 => 0
  | n + 1 => ofBits b n * 2 + if b n then 1 else 0

theorem ofBits_inj (b c : Nat → Bool) (n : Nat) : ofBits b n = ofBits c n ↔ ∀ k, k < n → b k = c k := by
  induction n with
  | zero => simp [ofBits]
  | succ n ih =>
    simp only [ofBits]
    constructor
    · intro h k hk
      have h1 : ofBits b n = ofBits c n ∧ b n = c n := by
        cases h1 : b n <;> cases h2 : c n <;> simp [h1, h2] at h ⊢ <;> omega
      by_cases e : k = n
      · rw [e]; exact h1.2
      · exact ih.1 h1.1 k (by omega)
    · intro h
      rw [ih.2 fun k hk => h k (by omega), h n (by omega)]

theorem testBit_inj {x y a : Nat} (hx : x < 2 ^ a) (hy : y < 2 ^ a) (h : ∀ k, k < a → x.testBit k = y.testBit k) : x = y := by
  apply Nat.eq_of_testBit_eq
  intro k
  by_cases hk : k < a
  · exact h k hk
  · have h1 : 2 ^ a ≤ 2 ^ k := Nat.pow_le_pow_right (by omega) (by omega)
    rw [Nat.testBit_lt_two_pow (by omega), Nat.testBit_lt_two_pow (by omega)]

/-- Values of the variables that satisfy the clauses of a pair tell whether the labels are the same. -/
theorem PairOk.same {a : Nat} {ν : VarId → Bool} {s : Sim} {i j : Nat} (h : PairOk a ν s i j) :
    (s = .mustLink → ofBits (fun k => ν (.binary i k)) a = ofBits (fun k => ν (.binary j k)) a) ∧
    (s = .cannotLink → ofBits (fun k => ν (.binary i k)) a ≠ ofBits (fun k => ν (.binary j k)) a) ∧
    ∀ k, pairCost k s (ν (.same i j)) =
      pairCost k s (decide (ofBits (fun k => ν (.binary i k)) a = ofBits (fun k => ν (.binary j k)) a)) := by
  obtain ⟨h1, h2, h3, h4⟩ := h
  simp only [ne_eq, ofBits_inj]
  refine ⟨h3, fun e hb => ?_, fun k => ?_⟩
  · obtain ⟨k, hk, hf⟩ := h4 e
    have := (h1 (by rw [e]; rfl) k hk).2 (hb k hk)
    rw [hf] at this
    cases this
  · have key : needsSame s = true → needsEq s = true → ν (.same i j) = decide (∀ k, k < a → ν (.binary i k) = ν (.binary j k)) := by
      intro e e'
      rw [Bool.eq_iff_iff, h2 e, decide_eq_true_eq]
      exact forall_congr' fun k => ⟨fun h hk => (h1 e' k hk).1 (h hk), fun h hk => (h1 e' k hk).2 (h hk)⟩
    cases s with
    | similar w => rw [key rfl rfl]
    | disSimilar w => rw [key rfl rfl]
    | _ => rfl

/-- The values for given labels. -/
def labelVals (g : Nat → Nat) : VarId → Bool
  | .binary i k => (g i).testBit k
  | .eq i j k => (g i).testBit k == (g j).testBit k
  | .same i j => decide (g i = g j)

theorem labelVals_ok {g : Nat → Nat} {a : Nat} {s : Sim} {i j : Nat} (hi : g i < 2 ^ a) (hj : g j < 2 ^ a)
    (hm : s = .mustLink → g i = g j) (hc : s = .cannotLink → g i ≠ g j) : PairOk a (labelVals g) s i j := by
  refine ⟨fun _ k _ => ?_, fun _ => ?_, fun e k _ => ?_, fun e => ?_⟩
  · simp only [labelVals, beq_iff_eq]
  · simp only [labelVals, beq_iff_eq, decide_eq_true_eq]
    exact ⟨fun e k _ => by rw [e], testBit_inj hi hj⟩
  · simp only [labelVals]
    rw [hm e]
  · apply Classical.byContradiction
    intro hn
    refine hc e (testBit_inj hi hj fun k hk => ?_)
    have : labelVals g (.eq i j k) ≠ false := fun h => hn ⟨k, hk, h⟩
    simpa only [labelVals, ne_eq, Bool.not_eq_false, beq_iff_eq] using this

/-! ### Variables fit -/

def idUniv (n a : Nat) : List VarId :=
  ((List.range n).flatMap fun i => (List.range a).map fun k => .binary i k) ++
  (((List.range n).flatMap fun i => (List.range n).flatMap fun j => (List.range a).map fun k => .eq i j k) ++
  ((List.range n).flatMap fun i => (List.range n).map fun j => .same i j))

theorem length_flatMap_const {α : Type} (n m : Nat) (f : Nat → List α) (h : ∀ i, (f i).length = m) :
    ((List.range n).flatMap f).length = n * m := by
  induction n with
  | zero => simp
  | succ n ih => rw [List.range_succ, List.flatMap_append, List.length_append, ih]; simp [h, Nat.succ_mul]

theorem idUniv_length (n a : Nat) : (idUniv n a).length = n * a + n * (n * a) + n * n := by
  unfold idUniv
  rw [List.length_append, List.length_append, length_flatMap_const n a _ (by simp),
    length_flatMap_const n (n * a) _ (fun i => length_flatMap_const n a _ (by simp)), length_flatMap_const n n _ (by simp)]
  omega

theorem binary_mem {n a i k : Nat} (hi : i < n) (hk : k < a) : VarId.binary i k ∈ idUniv n a := by
  simp [idUniv, hi, hk]

theorem eq_mem {n a i j k : Nat} (hi : i < n) (hj : j < n) (hk : k < a) : VarId.eq i j k ∈ idUniv n a := by
  simp [idUniv, hi, hj, hk]

theorem same_mem {n a i j : Nat} (hi : i < n) (hj : j < n) : VarId.same i j ∈ idUniv n a := by
  simp [idUniv, hi, hj]

theorem line_ids {d : Data} {S : Nat → Nat → Sim} {l : SymLine} (h : l ∈ allLines d S) :
    l.Closed ∧ ∀ v ∈ l.ids, v ∈ idUniv d.n d.a := by
  obtain ⟨p, hp, h⟩ := mem_allLines.1 h
  obtain ⟨i, j⟩ := p
  have hp := mem_pairsOf_range.1 hp
  simp only at hp
  have hi : i < d.n := by omega
  have hj : j < d.n := hp.2
  obtain h | h | h | h | h | h := h
  · unfold eqBlock at h
    by_cases hn : needsEq (S i j) = true
    · rw [if_pos hn] at h
      simp only [List.mem_flatMap, List.mem_range, List.mem_singleton] at h
      obtain ⟨k, hk, c, hc, rfl⟩ := h
      constructor
      · have hc' : c = 0 ∨ c = 1 ∨ c = 2 ∨ c = 3 := by omega
        obtain rfl | rfl | rfl | rfl := hc' <;> simp [SymLine.Closed, eqLine, eqLits]
      · simp only [eqLine, List.mem_cons, List.not_mem_nil, or_false]
        rintro v (rfl | rfl | rfl)
        · exact binary_mem hi hk
        · exact binary_mem hj hk
        · exact eq_mem hi hj hk
    · rw [if_neg hn] at h
      cases h
  · unfold sameBlock at h
    by_cases hn : needsSame (S i j) = true
    · rw [if_pos hn] at h
      simp only [List.mem_flatMap, List.mem_range, List.mem_singleton] at h
      obtain ⟨c, hc, rfl⟩ := h
      unfold Data.sameLine
      by_cases h2 : c < d.a
      · rw [if_pos h2]
        constructor
        · simp [SymLine.Closed]
        · simp only [List.mem_cons, List.not_mem_nil, or_false]
          rintro v (rfl | rfl)
          · exact same_mem hi hj
          · exact eq_mem hi hj h2
      · rw [if_neg h2]
        constructor
        · simp only [SymLine.Closed, List.mem_append, List.mem_map, List.mem_range, List.mem_cons, List.not_mem_nil, or_false]
          rintro p (⟨k, hk, rfl⟩ | rfl)
          · exact .inr ⟨k, hk, rfl⟩
          · exact .inl rfl
        · simp only [List.mem_cons, List.mem_map, List.mem_range]
          rintro v (rfl | ⟨k, hk, rfl⟩)
          · exact same_mem hi hj
          · exact eq_mem hi hj hk
    · rw [if_neg hn] at h
      cases h
  · unfold mustBlock at h
    by_cases hn : S i j = .mustLink
    · rw [if_pos hn] at h
      simp only [List.mem_flatMap, List.mem_range, List.mem_singleton] at h
      obtain ⟨c, hc, rfl⟩ := h
      have h2 : c / 2 < d.a := by omega
      constructor
      · by_cases he : c % 2 = 0 <;> simp [SymLine.Closed, mustLine, he]
      · simp only [mustLine, List.mem_cons, List.not_mem_nil, or_false]
        rintro v (rfl | rfl)
        · exact binary_mem hi h2
        · exact binary_mem hj h2
    · rw [if_neg hn] at h
      cases h
  · unfold cannotBlock at h
    by_cases hn : S i j = .cannotLink
    · rw [if_pos hn, List.mem_singleton] at h
      subst h
      constructor
      · simp only [SymLine.Closed, Data.cannotLine, List.mem_map, List.mem_range]
        rintro p ⟨k, hk, rfl⟩
        exact ⟨k, hk, rfl⟩
      · simp only [Data.cannotLine, List.mem_map, List.mem_range]
        rintro v ⟨k, hk, rfl⟩
        exact eq_mem hi hj hk
    · rw [if_neg hn] at h
      cases h
  · obtain ⟨w, _, rfl⟩ := similarBlock_soft l h
    exact ⟨by simp [SymLine.Closed], by simpa using same_mem hi hj⟩
  · obtain ⟨w, _, rfl⟩ := disSimilarBlock_soft l h
    exact ⟨by simp [SymLine.Closed], by simpa using same_mem hi hj⟩

theorem finalVars_length (d : Data) (S : Nat → Nat → Sim) :
    (finalVars [] (allLines d S)).length ≤ d.n * d.a + d.n * (d.n * d.a) + d.n * d.n := by
  rw [← idUniv_length]
  refine (List.subperm_of_subset (finalVars_nodup _ .nil) fun v hv => ?_).length_le
  obtain h | ⟨l, hl, hv⟩ := (mem_finalVars _ _ _).1 hv
  · cases h
  · exact (line_ids hl).2 v hv

/-- Every valuation of the identifiers is given by an assignment. -/
theorem exists_asg (m : List VarId) (ν : VarId → Bool) : ∃ a : Asg, ∀ v ∈ m, a (m.idxOf v) = ν v := by
  refine ⟨fun i => ν (m.getD i (.same 0 0)), fun v hv => ?_⟩
  have := List.idxOf_lt_length_of_mem hv
  beta_reduce
  rw [List.getD_eq_getElem?_getD, List.getElem?_eq_getElem this, List.getElem_idxOf this]
  rfl

theorem SymLine.sat_congr {l : SymLine} {ν ν' : VarId → Bool} (h : ∀ p ∈ l.lits, ν p.1 = ν' p.1) : l.sat ν ↔ l.sat ν' := by
  constructor
  · rintro ⟨p, hp, e⟩
    exact ⟨p, hp, by rw [← h p hp, e]⟩
  · rintro ⟨p, hp, e⟩
    exact ⟨p, hp, by rw [h p hp, e]⟩

theorem SymLine.cost_congr {l : SymLine} {ν ν' : VarId → Bool} (h : ∀ p ∈ l.lits, ν p.1 = ν' p.1) (k : Nat) :
    l.cost ν k = l.cost ν' k := by
  unfold SymLine.cost
  cases l.soft with
  | none => rfl
  | some q => simp only [SymLine.sat_congr h]

end Clustering
end RustSat
