import Verif.Lemmas.Simp3
/-
C96: the solver with preprocessing of Glucose: variable elimination, extension of models, freezing and melting variables.

The theorems hold for any choice of the variables that are eliminated and for every correct search. They are partial: a clause
with an eliminated variable is accepted and gives wrong results afterwards (`C96_violated_eliminated_clause`), a core may be
that of an earlier query (`C96_violated_core`), an assumption over a variable the solver does not know reads out of bounds
(`C96_violated_unknown_variable`), and the values of negative literals are wrong as in C71.
-/
namespace RustSat

section
variable {S : Type} [SimpCore S] [LawfulSimpCore S]

/-- C96: what `solve` returns is right for all clauses added so far, those that were eliminated included: after `Sat` the
values of the variables, also of the eliminated ones, form a model, after `Unsat` there is none. (`_partial`: only the values
of positive literals, and no clause has a variable that was eliminated before it was added.) -/
theorem C96_solve_partial {n n' : Mini (SimpState S)} {F : ClauseSet} {Z : Nat → Prop} {r : SolverResult}
    (h : SimpReach n F Z) (e : n.solve = (.ok r, n')) :
    (r = .sat → GivesModel n'.posVal F ∧ ∀ c ∈ F, ∀ l ∈ c, ∃ t, n'.litVal (Lit.pos l.var) = .ok t) ∧
    (r = .unsat → Unsatisfiable F ∧ n'.core = .ok []) := by
  have hi := h.inv
  rcases n.solve_cases with ⟨hs, he⟩ | ⟨hs, he⟩ | he
  · rw [he] at e
    injection e with e1 e2
    injection e1 with e1
    subst e1 e2
    exact ⟨fun _ => Mini.posVal_gives hs (hi.sat hs), nofun⟩
  · rw [he] at e
    injection e with e1 e2
    injection e1 with e1
    subst e1 e2
    exact ⟨nofun, fun _ => ⟨hi.unsat hs, by unfold Mini.core; rw [hs]⟩⟩
  · rw [he] at e
    have q := simp_after (A := []) hi.inv (fun _ h => absurd h List.not_mem_nil) e
    refine ⟨fun hr => ?_, fun hr => ?_⟩
    · obtain ⟨hs, hm⟩ := q.sat hr
      exact Mini.posVal_gives hs (by simpa [units] using hm)
    · obtain ⟨hs, hm, _⟩ := q.unsat hr
      exact ⟨by simpa [units] using hm, by unfold Mini.core; rw [hs]⟩

/-- C96: what `solve_assumps` returns is right for all clauses added so far and the assumptions of the call; the core follows
from the clauses. (`_partial`: as before, and the core consists of negated assumptions only if the clauses have a model,
see `C96_violated_core`.) -/
theorem C96_assumps_partial {n n' : Mini (SimpState S)} {F : ClauseSet} {Z : Nat → Prop} {A : List Lit} {r : SolverResult}
    (h : SimpReach n F Z) (e : n.solveAssumpsSimp A = (.ok r, n')) :
    (r = .sat → GivesModel n'.posVal (F ++ units A) ∧
      ∀ c ∈ F ++ units A, ∀ l ∈ c, ∃ t, n'.litVal (Lit.pos l.var) = .ok t) ∧
    (r = .unsat → Unsatisfiable (F ++ units A) ∧ ∃ core, n'.core = .ok core ∧
      (∀ m, ClauseSet.sat m F → Clause.sat m core) ∧ (¬ Unsatisfiable F → ∀ l ∈ core, l.neg ∈ A)) := by
  obtain ⟨h1, h2⟩ := solveAssumpsSimp_ok e
  have q := simp_after h.inv.inv (fun l hl => by
    have := h1 l hl
    unfold Mini.varEliminated at this
    rw [this]; exact nofun) h2
  refine ⟨fun hr => ?_, fun hr => ?_⟩
  · obtain ⟨hs, hm⟩ := q.sat hr
    exact Mini.posVal_gives hs hm
  · obtain ⟨hs, hm, hc, hA⟩ := q.unsat hr
    exact ⟨hm, _, (by unfold Mini.core; rw [hs]; rfl), hc, fun hn => hA.resolve_left hn⟩

/-- C96: at any time, values can be read exactly after a query that returned `Sat`, a core exactly after one that returned
`Unsat`, and both are right for the clauses. Freezing, melting and reserving variables do not change this. -/
theorem C96_states_partial {n : Mini (SimpState S)} {F : ClauseSet} {Z : Nat → Prop} (h : SimpReach n F Z) :
    (n.state = .sat → GivesModel n.posVal F) ∧
    (n.state = .unsat false → Unsatisfiable F ∧ n.core = .ok []) ∧
    (n.state = .unsat true → ∃ core, n.core = .ok core ∧ ∀ m, ClauseSet.sat m F → Clause.sat m core) ∧
    (n.state ≠ .sat → ∀ l, n.litVal l = .err (.state .sat n.state.toExternal)) ∧
    (∀ v, (n.freezeVar v).state = n.state ∧ (n.meltVar v).state = n.state ∧ (n.reserve v).state = n.state) := by
  have hi := h.inv
  refine ⟨fun hs => (Mini.posVal_gives hs (hi.sat hs)).1, fun hs => ⟨hi.unsat hs, by unfold Mini.core; rw [hs]⟩,
    fun hs => ⟨_, (by unfold Mini.core; rw [hs]; rfl), hi.core hs⟩, fun hs l => by unfold Mini.litVal; rw [if_neg hs],
    fun v => ⟨rfl, ?_, rfl⟩⟩
  unfold Mini.meltVar
  split
  · rfl
  · split <;> rfl

/-- C96: `is_frozen` says for every variable whether it was frozen and not melted since; queries under assumptions, for which
the variables of the assumptions are frozen, do not change this. -/
theorem C96_frozen {n : Mini (SimpState S)} {F : ClauseSet} {Z : Nat → Prop} (h : SimpReach n F Z) (v : Nat) :
    (n.isFrozen v = some true ↔ Z v) ∧ (n.isFrozen v = some false ↔ ¬ Z v) := by
  have hi := h.inv
  have key : (n.isFrozen v = some true ↔ n.handle.frozen[v]? = some true) ∧ n.isFrozen v ≠ none := by
    unfold Mini.isFrozen Mini.maxVarSimp
    by_cases hpos : 0 < n.handle.frozen.length
    · rw [if_pos hpos]
      dsimp only
      by_cases hk : n.handle.frozen.length - 1 < v
      · rw [if_pos hk, List.getElem?_eq_none (by omega)]
        simp
      · rw [if_neg hk]
        refine ⟨Iff.rfl, ?_⟩
        rw [List.getElem?_eq_getElem (by omega)]
        exact nofun
    · rw [if_neg hpos, List.getElem?_eq_none (by omega)]
      simp
  have h1 := key.1.trans (hi.frozen v)
  refine ⟨h1, ?_⟩
  rw [← h1]
  cases hv : n.isFrozen v with
  | none => exact absurd hv key.2
  | some b => cases b <;> simp

/-- C96: a query eliminates neither variables that are frozen nor variables of its assumptions, and no other call eliminates
variables. What is eliminated stays so. -/
theorem C96_elimination {n : Mini (SimpState S)} {F : ClauseSet} {Z : Nat → Prop} (h : SimpReach n F Z) (v : Nat) :
    (∀ r n', n.solve = (.ok r, n') → (n.varEliminated v = some true → n'.varEliminated v = some true) ∧
      (Z v → n.varEliminated v ≠ some true → n'.varEliminated v ≠ some true)) ∧
    (∀ A r n', n.solveAssumpsSimp A = (.ok r, n') → (n.varEliminated v = some true → n'.varEliminated v = some true) ∧
      (Z v ∨ (∃ l ∈ A, l.var = v) → n.varEliminated v ≠ some true → n'.varEliminated v ≠ some true)) ∧
    (∀ c, (n.addClause c).varEliminated v = some true ↔ n.varEliminated v = some true) ∧
    (∀ w, ((n.reserve w).varEliminated v = some true ↔ n.varEliminated v = some true) ∧
      ((n.freezeVar w).varEliminated v = some true ↔ n.varEliminated v = some true) ∧
      ((n.meltVar w).varEliminated v = some true ↔ n.varEliminated v = some true)) := by
  have hi := h.inv
  refine ⟨fun r n' e => ?_, fun A r n' e => ?_, fun c => ?_, fun w => ⟨?_, ?_, ?_⟩⟩
  · rcases n.solve_cases with ⟨_, he⟩ | ⟨_, he⟩ | he
    · rw [he] at e; injection e with _ e; subst e; exact ⟨id, fun _ => id⟩
    · rw [he] at e; injection e with _ e; subst e; exact ⟨id, fun _ => id⟩
    · rw [he] at e
      have q := simp_after (A := []) hi.inv (fun _ h => absurd h List.not_mem_nil) e
      exact ⟨q.elim v, fun hz => q.notElim v (.inl ((hi.frozen v).2 hz))⟩
  · obtain ⟨h1, h2⟩ := solveAssumpsSimp_ok e
    have q := simp_after hi.inv (fun l hl => by
      have := h1 l hl
      unfold Mini.varEliminated at this
      rw [this]; exact nofun) h2
    exact ⟨q.elim v, fun hz => q.notElim v (hz.imp_left (hi.frozen v).2)⟩
  · exact ((n.handle.grow_eliminated _ v).1).symm
  · exact ((n.handle.grow_eliminated _ v).1).symm
  · exact ((n.handle.grow_eliminated _ v).1).symm
  · unfold Mini.meltVar
    split
    · exact Iff.rfl
    · split <;> exact Iff.rfl

omit [SimpCore S] [LawfulSimpCore S] in
theorem checkAssumps_cases {n : Mini (SimpState S)} {A : List Lit} (h : ∀ l ∈ A, n.varEliminated l.var ≠ none) :
    (n.checkAssumps A = .ok () ∧ ∀ l ∈ A, n.varEliminated l.var = some false) ∨
    ∃ l ∈ A, n.varEliminated l.var = some true ∧ n.checkAssumps A = .err (.eliminated l.var) := by
  induction A with
  | nil => exact .inl ⟨rfl, nofun⟩
  | cons a A ih =>
    unfold Mini.checkAssumps
    cases hv : n.varEliminated a.var with
    | none => exact absurd hv (h a List.mem_cons_self)
    | some b =>
      cases b with
      | true => exact .inr ⟨a, List.mem_cons_self, hv, rfl⟩
      | false =>
        rcases ih fun l hl => h l (List.mem_cons_of_mem _ hl) with ⟨h1, h2⟩ | ⟨l, hl, h1, h2⟩
        · refine .inl ⟨h1, fun l hl => ?_⟩
          rcases List.mem_cons.1 hl with rfl | hl
          · exact hv
          · exact h2 l hl
        · exact .inr ⟨l, List.mem_cons_of_mem _ hl, h1, h2⟩

/-- C96: `solve` never fails. `solve_assumps`, with assumptions over variables the solver knows, fails exactly if one of them
has been eliminated; then it names such a variable and changes nothing. The solver knows the variables of all clauses and
those that were reserved or frozen. (`_partial`: see `C96_violated_unknown_variable`.) -/
theorem C96_failures_partial {n : Mini (SimpState S)} {F : ClauseSet} {Z : Nat → Prop} (h : SimpReach n F Z) :
    (∃ r n', n.solve = (.ok r, n')) ∧
    (∀ A : List Lit, (∀ l ∈ A, n.varEliminated l.var ≠ none) →
      ((∀ l ∈ A, n.varEliminated l.var = some false) ∧ ∃ r n', n.solveAssumpsSimp A = (.ok r, n')) ∨
      ∃ l ∈ A, n.varEliminated l.var = some true ∧ n.solveAssumpsSimp A = (.err (.eliminated l.var), n)) ∧
    (∀ c ∈ F, ∀ l ∈ c, n.varEliminated l.var ≠ none) ∧ (∀ v, Z v → n.varEliminated v ≠ none) ∧
    ∀ v, (n.reserve v).varEliminated v ≠ none := by
  have hi := h.inv
  have hrec : ∀ b A, (∀ l ∈ A, n.handle.eliminated[l.var]? ≠ some true) →
      ∃ r n', n.record b (MiniLib.solve n.handle A) = (.ok r, n') := by
    intro b A hA
    have q := SimpState.solve_ok hi.inv hA
    change ∃ r n', n.record b (n.handle.solve A) = (.ok r, n')
    unfold Mini.record
    rcases q.result with hr | hr | hr
    · rw [if_pos hr]; exact ⟨_, _, rfl⟩
    · rw [if_neg (by omega), if_pos hr]; exact ⟨_, _, rfl⟩
    · rw [if_neg (by omega), if_neg (by omega), if_pos hr]; exact ⟨_, _, rfl⟩
  have hlk : ∀ v, v < n.handle.frozen.length → n.varEliminated v ≠ none := by
    intro v hv
    unfold Mini.varEliminated
    rw [List.getElem?_eq_getElem (by rw [hi.inv.len]; exact hv)]
    exact nofun
  refine ⟨?_, fun A hA => ?_, fun c hc l hl => hlk _ (hi.inv.known c hc l hl),
    fun v hz => hlk v (SimpState.lookup_lt ((hi.frozen v).2 hz)), fun v => ?_⟩
  · rcases n.solve_cases with ⟨_, he⟩ | ⟨_, he⟩ | he
    · exact ⟨_, _, he⟩
    · exact ⟨_, _, he⟩
    · rw [he]
      exact hrec false [] (fun _ h => absurd h List.not_mem_nil)
  · rcases checkAssumps_cases hA with ⟨h1, h2⟩ | ⟨l, hl, h1, h2⟩
    · refine .inl ⟨h2, ?_⟩
      obtain ⟨r, n', e⟩ := hrec true A fun l hl => by
        have := h2 l hl
        unfold Mini.varEliminated at this
        rw [this]; exact nofun
      refine ⟨r, n', ?_⟩
      unfold Mini.solveAssumpsSimp
      rw [h1]
      dsimp only
      rw [show n.solveAssumps A = _ from e]
      rfl
    · refine .inr ⟨l, hl, h1, ?_⟩
      unfold Mini.solveAssumpsSimp
      rw [h2]
  · exact (n.handle.grow_eliminated (v + 1) v).2.2 (.inr (by omega))

end

/-! ### Examples -/

/-- A small search, like that of `ToyMini`, that tries to eliminate the first two variables. -/
structure ToyCore where
deriving DecidableEq

namespace ToyCore

/-- The search. -/
def run (G : ClauseSet) (A : List Lit) : CoreResult :=
  if ToyLib.good (G ++ units A) then .sat fun v => some (ToyLib.guess (G ++ units A) v)
  else if ToyLib.bad (G ++ units A) then .unsat (A.map Lit.neg)
  else .unknown

instance : SimpCore ToyCore where
  init := {}
  order _ _ := [0, 1]
  refutes _ G := ToyLib.bad G
  search s G _ A := (run G A, s)
  propCheck _ _ _ _ := none

instance : LawfulSimpCore ToyCore where
  refutes s G h := ToyLib.bad_unsat h
  sat s G E A p h := by
    change run G A = .sat p at h
    unfold run at h
    by_cases hg : ToyLib.good (G ++ units A) = true
    · rw [if_pos hg] at h
      injection h with h
      subst h
      refine ⟨fun c hc => ?_, fun _ _ => nofun⟩
      have hm : ClauseSet.sat (ToyLib.guess (G ++ units A)) (G ++ units A) := by
        refine ToyLib.good_sat hg _ fun v b hb => ?_
        unfold ToyLib.values at hb
        split at hb
        · injection hb
        · cases hb
      obtain ⟨l, hl, ht⟩ := hm c hc
      refine ⟨l, hl, ?_⟩
      unfold Lit.holds at ht
      show some (ToyLib.guess (G ++ units A) l.var) = _
      cases hn : l.isNeg with
      | true => rw [hn] at ht; simp at ht; rw [ht]; rfl
      | false => rw [hn] at ht; simp at ht; rw [ht]; rfl
    · rw [if_neg hg] at h
      split at h <;> cases h
  unsat s G E A c h := by
    change run G A = .unsat c at h
    unfold run at h
    by_cases hg : ToyLib.good (G ++ units A) = true
    · rw [if_pos hg] at h; cases h
    · rw [if_neg hg] at h
      by_cases hb : ToyLib.bad (G ++ units A) = true
      · rw [if_pos hb] at h
        injection h with h
        subst h
        refine ⟨fun l hl => ?_, fun m hm => core_sat (ToyLib.bad_unsat hb) m hm⟩
        obtain ⟨a, ha, rfl⟩ := List.mem_map.1 hl
        rw [Lit.neg_neg]
        exact ha
      · rw [if_neg hb] at h; cases h

end ToyCore

/-- The hypotheses hold for a history in which a variable is eliminated, its value is found afterwards, an assumption over it is
rejected, and a frozen variable is not eliminated. -/
example : ∃ n1 n2 : Mini (SimpState ToyCore),
    (((Mini.new.freezeVar 1).addClause [Lit.pos 0, Lit.pos 1]).addClause [Lit.negOf 1]).solve = (.ok .sat, n1) ∧
    SimpReach n1 [[Lit.pos 0, Lit.pos 1], [Lit.negOf 1]] (fun w => w = 1 ∨ False) ∧
    n1.varEliminated 0 = some true ∧ n1.varEliminated 1 = some false ∧
    n1.litVal (Lit.pos 0) = .ok .true ∧ n1.litVal (Lit.pos 1) = .ok .false ∧
    n1.solveAssumpsSimp [Lit.pos 1, Lit.pos 0] = (.err (.eliminated 0), n1) ∧
    n1.solveAssumpsSimp [Lit.pos 1] = (.ok .unsat, n2) ∧ n2.core = .ok [Lit.negOf 1] ∧
    SimpReach n2 [[Lit.pos 0, Lit.pos 1], [Lit.negOf 1]] (fun w => w = 1 ∨ False) := by
  have h1 := ((((SimpReach.new (S := ToyCore)).freeze 1).add [Lit.pos 0, Lit.pos 1] (by decide)).add [Lit.negOf 1]
    (by decide)).solve (r := .sat) (eq_pair_of_fst (by decide))
  exact ⟨_, _, eq_pair_of_fst (by decide), h1, by decide, by decide, by decide, by decide, rfl,
    eq_pair_of_fst (by decide), by decide, h1.assumps (A := [Lit.pos 1]) (r := .unsat) (eq_pair_of_fst (by decide))⟩

/-- C96 is violated: clauses with a variable that was eliminated by an earlier query are accepted, and `solve` returns `Sat`
although there is no model. -/
theorem C96_violated_eliminated_clause : ∃ n1 n2 : Mini (SimpState ToyCore),
    (Mini.new.addClause [Lit.pos 0, Lit.pos 1]).solve = (.ok .sat, n1) ∧
    ((n1.addClause [Lit.negOf 0]).addClause [Lit.negOf 1]).solve = (.ok .sat, n2) ∧
    Unsatisfiable [[Lit.pos 0, Lit.pos 1], [Lit.negOf 0], [Lit.negOf 1]] := by
  refine ⟨_, _, eq_pair_of_fst (by decide), eq_pair_of_fst (by decide), ?_⟩
  rintro ⟨m, hm⟩
  obtain ⟨a, ha, ha'⟩ := hm [Lit.negOf 0] (by simp)
  obtain ⟨b, hb, hb'⟩ := hm [Lit.negOf 1] (by simp)
  obtain ⟨c, hc, hc'⟩ := hm [Lit.pos 0, Lit.pos 1] (by simp)
  rw [List.mem_singleton.1 ha, Lit.holds_negOf] at ha'
  rw [List.mem_singleton.1 hb, Lit.holds_negOf] at hb'
  rcases List.mem_cons.1 hc with rfl | hc
  · rw [Lit.holds_pos] at hc'; rw [hc'] at ha'; cases ha'
  · rw [List.mem_singleton.1 hc, Lit.holds_pos] at hc'; rw [hc'] at hb'; cases hb'

/-- C96 is violated: if a contradiction between the clauses is found before the search, the core is that of an earlier query
and has a literal that is not a negated assumption. -/
theorem C96_violated_core : ∃ n1 n2 : Mini (SimpState ToyCore),
    (((Mini.new.reserve 2).freezeVar 1).addClause [Lit.pos 0]).solveAssumpsSimp [Lit.negOf 0] = (.ok .unsat, n1) ∧
    SimpReach n1 [[Lit.pos 0]] (fun w => w = 1 ∨ False) ∧ n1.varEliminated 1 = some false ∧
    ((n1.addClause [Lit.pos 1]).addClause [Lit.negOf 1]).solveAssumpsSimp [Lit.pos 2] = (.ok .unsat, n2) ∧
    n2.core = .ok [Lit.pos 0] ∧ (Lit.pos 0).neg ∉ [Lit.pos 2] :=
  ⟨_, _, eq_pair_of_fst (by decide), ((((SimpReach.new (S := ToyCore)).reserve 2).freeze 1).add [Lit.pos 0]
    (by decide)).assumps (A := [Lit.negOf 0]) (r := .unsat) (eq_pair_of_fst (by decide)), by decide,
    eq_pair_of_fst (by decide), by decide, by decide⟩

/-- C96 is violated: whether a variable was eliminated is read from a vector without a check of the index; an assumption over
a variable that the solver does not know is an access out of bounds. -/
theorem C96_violated_unknown_variable (l : Lit) :
    (Mini.new : Mini (SimpState ToyCore)).varEliminated l.var = none ∧
    (Mini.new : Mini (SimpState ToyCore)).solveAssumpsSimp [l] = (.panic, Mini.new) := by
  have h : (Mini.new : Mini (SimpState ToyCore)).varEliminated l.var = none := List.getElem?_nil
  refine ⟨h, ?_⟩
  unfold Mini.solveAssumpsSimp Mini.checkAssumps
  rw [h]

end RustSat
