import Verif.Spec.CadicalApi
/-
Invariants of the CaDiCaL wrapper and the library.
-/
namespace RustSat.CadicalApi

namespace Lib

@[simp] theorem toSteady_state (l : Lib) : l.toSteady.state = .steady := by unfold toSteady; split <;> rfl
@[simp] theorem toSteady_clauses (l : Lib) : l.toSteady.clauses = l.clauses := by unfold toSteady; split <;> rfl
@[simp] theorem toSteady_open (l : Lib) : l.toSteady.openClause = l.openClause := by unfold toSteady; split <;> rfl
@[simp] theorem toSteady_frozen (l : Lib) : l.toSteady.frozen = l.frozen := by unfold toSteady; split <;> rfl

theorem toSteady_of (l : Lib) (h : l.state = .steady ∨ l.state = .adding ∨ l.state = .configuring) :
    l.toSteady.assumps = l.assumps ∧ l.toSteady.constr = l.constr := by
  unfold toSteady
  rcases h with h | h | h <;> rw [h] <;> exact ⟨rfl, rfl⟩

theorem toSteady_done (l : Lib) (h : l.state = .satisfied ∨ l.state = .unsatisfied ∨ l.state = .inconclusive) :
    l.toSteady.assumps = [] ∧ l.toSteady.constr = none := by
  unfold toSteady
  rcases h with h | h | h <;> rw [h] <;> exact ⟨rfl, rfl⟩

theorem valid_iff (l : Lib) : l.valid = true ↔ l.state ≠ .solving := by simp [valid]

end Lib

/-- What the library knows, apart from the state and a clause that is not terminated. -/
structure Same (l l' : Lib) : Prop where
  clauses : l'.clauses = l.clauses
  assumps : l'.toSteady.assumps = l.toSteady.assumps
  constr : l'.toSteady.constr = l.toSteady.constr
  frozen : l'.frozen = l.frozen
  opn : l'.openClause = l.openClause

theorem Same.refl (l : Lib) : Same l l := ⟨rfl, rfl, rfl, rfl, rfl⟩

theorem Same.toSteady (l : Lib) : Same l l.toSteady :=
  ⟨by simp, ((l.toSteady).toSteady_of (.inl (by simp))).1, ((l.toSteady).toSteady_of (.inl (by simp))).2, by simp, by simp⟩

theorem pass_add (c : Clause) : ∀ l : Lib, l.state ≠ .solving →
    ∃ l', pass Lib.add l none c = .ok none l' ∧ l'.state ≠ .solving ∧ l'.clauses = l.clauses ∧
      l'.openClause = l.openClause ++ c ∧ l'.toSteady.assumps = l.toSteady.assumps ∧
      l'.toSteady.constr = l.toSteady.constr ∧ l'.frozen = l.frozen := by
  induction c with
  | nil => intro l h; exact ⟨l, rfl, h, rfl, by simp, rfl, rfl, rfl⟩
  | cons x xs ih =>
    intro l h
    have hv : l.valid = true := l.valid_iff.2 h
    have e : Lib.add l true x =
        .ok () { l.toSteady.touch x with openClause := l.toSteady.openClause ++ [x], state := .adding } := by
      unfold Lib.add
      rw [hv]
      rfl
    obtain ⟨l', e', h1, h2, h3, h4, h5, h6⟩ :=
      ih { l.toSteady.touch x with openClause := l.toSteady.openClause ++ [x], state := .adding } (by simp)
    refine ⟨l', ?_, h1, ?_, ?_, ?_, ?_, ?_⟩
    · show (Lib.add l true x).bind _ = _
      rw [e]
      exact e'
    · rw [h2]; exact l.toSteady_clauses
    · rw [h3]; simp
    · rw [h4]; rfl
    · rw [h5]; rfl
    · rw [h6]; exact l.toSteady_frozen

theorem pass_constrain (c : Clause) : ∀ l : Lib, l.state ≠ .solving →
    ∃ l', pass Lib.constrain l none c = .ok none l' ∧ l'.state ≠ .solving ∧ l'.clauses = l.clauses ∧
      l'.openClause = l.openClause ∧ l'.toSteady.assumps = l.toSteady.assumps ∧
      l'.toSteady.constrLits = l.toSteady.constrLits ++ c ∧ l'.frozen = l.frozen := by
  induction c with
  | nil => intro l h; exact ⟨l, rfl, h, rfl, rfl, rfl, by simp, rfl⟩
  | cons x xs ih =>
    intro l h
    have hv : l.valid = true := l.valid_iff.2 h
    have e : Lib.constrain l true x =
        .ok () { l.toSteady.touch x with constr := some (l.toSteady.constrLits ++ [x], false), state := .adding } := by
      unfold Lib.constrain
      rw [hv]
      rfl
    obtain ⟨l', e', h1, h2, h3, h4, h5, h6⟩ :=
      ih { l.toSteady.touch x with constr := some (l.toSteady.constrLits ++ [x], false), state := .adding } (by simp)
    refine ⟨l', ?_, h1, ?_, ?_, ?_, ?_, ?_⟩
    · show (Lib.constrain l true x).bind _ = _
      rw [e]
      exact e'
    · rw [h2]; exact l.toSteady_clauses
    · rw [h3]; exact l.toSteady_open
    · rw [h4]; rfl
    · rw [h5]
      show (l.toSteady.constrLits ++ [x]) ++ xs = _
      simp
    · rw [h6]; exact l.toSteady_frozen

/-- Passing assumptions: all of them are assumed, or memory runs out before one of them. -/
theorem pass_assume (A : List Lit) : ∀ (l : Lib) (k : Option Nat), l.state ≠ .solving →
    (∃ k' l', pass Lib.assume l k A = .ok k' l' ∧ (A ≠ [] → l'.state = .steady) ∧ (A = [] → l' = l) ∧
      l'.clauses = l.clauses ∧ l'.openClause = l.openClause ∧ l'.toSteady.assumps = l.toSteady.assumps ++ A ∧
      l'.toSteady.constr = l.toSteady.constr ∧ l'.frozen = l.frozen) ∨
    (k ≠ none ∧ ∃ l', pass Lib.assume l k A = .oom l' ∧ l'.state = .steady ∧ l'.clauses = l.clauses ∧
      l'.openClause = l.openClause ∧ l'.frozen = l.frozen) := by
  induction A with
  | nil => intro l k h; exact .inl ⟨k, l, rfl, nofun, fun _ => rfl, rfl, rfl, by simp, rfl, rfl⟩
  | cons x xs ih =>
    intro l k h
    have hv : l.valid = true := l.valid_iff.2 h
    by_cases hk : k = some 0
    · subst hk
      refine .inr ⟨nofun, l.toSteady, ?_, by simp, by simp, by simp, by simp⟩
      show (Lib.assume l false x).bind _ = _
      unfold Lib.assume
      rw [hv]
      rfl
    · have e : Lib.assume l (k != some 0) x = .ok () { l.toSteady.touch x with assumps := l.toSteady.assumps ++ [x] } := by
        have : (k != some 0) = true := by simpa using hk
        unfold Lib.assume
        rw [hv, this]
        rfl
      have hst : ({ l.toSteady.touch x with assumps := l.toSteady.assumps ++ [x] } : Lib).state = .steady :=
        l.toSteady_state
      have hts := Lib.toSteady_of _ (.inl hst)
      have hp : pass Lib.assume l k (x :: xs) =
          pass Lib.assume { l.toSteady.touch x with assumps := l.toSteady.assumps ++ [x] } (k.map (· - 1)) xs := by
        show (Lib.assume l (k != some 0) x).bind _ = _
        rw [e]
        rfl
      rcases ih { l.toSteady.touch x with assumps := l.toSteady.assumps ++ [x] } (k.map (· - 1)) (by rw [hst]; decide) with
        ⟨k', l', e', h1, h2, h3, h4, h5, h6, h7⟩ | ⟨hk', l', e', h1, h2, h3, h4⟩
      · refine .inl ⟨k', l', hp.trans e', fun _ => ?_, nofun, ?_, ?_, ?_, ?_, ?_⟩
        · by_cases hx : xs = []
          · rw [h2 hx]; exact hst
          · exact h1 hx
        · rw [h3]; exact l.toSteady_clauses
        · rw [h4]; exact l.toSteady_open
        · rw [h5, hts.1]; simp
        · rw [h6, hts.2]; rfl
        · rw [h7]; exact l.toSteady_frozen
      · refine .inr ⟨fun hn => hk' (by rw [hn]; rfl), l', hp.trans e', h1, ?_, ?_, ?_⟩
        · rw [h2]; exact l.toSteady_clauses
        · rw [h3]; exact l.toSteady_open
        · rw [h4]; exact l.toSteady_frozen

/-- The states of the wrapper and the library fit. -/
structure Sync (w : Wrapper) : Prop where
  conf : w.state = .configuring → w.lib.state = .configuring
  inp : w.state = .input → w.lib.state ≠ .adding ∧ w.lib.state ≠ .solving
  sat : w.state = .sat → w.lib.state = .satisfied
  unsat : ∀ c, w.state = .unsat c → w.lib.state = .unsatisfied

theorem Sync.ready {w : Wrapper} (h : Sync w) : w.lib.state ≠ .adding ∧ w.lib.state ≠ .solving := by
  cases hs : w.state with
  | configuring => rw [h.conf hs]; exact ⟨nofun, nofun⟩
  | input => exact h.inp hs
  | sat => rw [h.sat hs]; exact ⟨nofun, nofun⟩
  | unsat c => rw [h.unsat c hs]; exact ⟨nofun, nofun⟩

theorem Sync.input {l : Lib} (h : l.state ≠ .adding ∧ l.state ≠ .solving) : Sync ⟨l, .input⟩ :=
  ⟨nofun, fun _ => h, nofun, nofun⟩

theorem Sync.same {w : Wrapper} (h : Sync w) {l : Lib} (e : l.state = w.lib.state) : Sync ⟨l, w.state⟩ :=
  ⟨fun hs => e.trans (h.conf hs), fun hs => by rw [show Lib.state _ = _ from e]; exact h.inp hs,
    fun hs => e.trans (h.sat hs), fun c hs => e.trans (h.unsat c hs)⟩

theorem coreAssumps_ok (l : Lib) (h : l.state = .unsatisfied) (A : List Lit) :
    Wrapper.coreAssumps l A = .ok ((A.filter fun x => l.failed.contains x).map Lit.neg) l := by
  induction A with
  | nil => rfl
  | cons x xs ih =>
    have e : l.isFailed x = .ok (l.failed.contains x) l := by unfold Lib.isFailed; rw [h]; rfl
    unfold Wrapper.coreAssumps
    rw [e]
    simp only [Call.bind, ih]
    by_cases hx : l.failed.contains x = true
    · rw [if_pos hx, List.filter_cons_of_pos (by exact hx)]; rfl
    · rw [if_neg hx, List.filter_cons_of_neg (by exact hx)]

theorem Lib.solve_ready {l : Lib} (h : l.state ≠ .adding ∧ l.state ≠ .solving) (a : Answer) : l.solve a = l.search a := by
  unfold Lib.solve
  have h1 : l.valid = true := l.valid_iff.2 h.2
  have h2 : (l.state == .adding) = false := by simpa using h.1
  rw [h1, h2]
  rfl

theorem Lib.propagate_ready {l : Lib} (h : l.state ≠ .solving) (a : Answer) :
    l.propagate a = (match a with | .oom => .oom l.toSteady | a => l.search a) := by
  have h1 : l.valid = true := l.valid_iff.2 h
  unfold Lib.propagate
  rw [h1]
  rfl

end RustSat.CadicalApi
