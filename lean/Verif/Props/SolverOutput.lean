import Verif.Lemmas.SolverOutput

/-!
C46: reading the output of a solver.
-/

namespace RustSat
open Text OutputSpec

/-- **C46** (unsatisfiable): the reader reports unsatisfiability exactly if some line says so and, before it, there is
neither another status line than `SATISFIABLE` nor an unreadable value line. -/
theorem C46_unsat (t : Text) : parseSatSolverOutput t = .ok .unsat ↔
    ∃ pre l post, lines t = pre ++ l :: post ∧ Quiet pre ∧ SaysUnsat l := by
  constructor
  · intro h
    rcases parse_cases t with ⟨_, _, _, _, _, h'⟩ | ⟨_, _, h'⟩ | ⟨_, _, _, h'⟩ | ⟨pre, l, post, a, e, h1, h2, h3⟩
    · rw [h] at h'; cases h'
    · rw [h] at h'; cases h'
    · rw [h] at h'; cases h'
    rcases h3 with ⟨h3, _⟩ | ⟨_, h'⟩ | ⟨_, h'⟩ | ⟨_, _, _, h'⟩ | ⟨_, _, h'⟩
    · exact ⟨pre, l, post, e, ⟨h1, a, h2⟩, h3⟩
    all_goals rw [h] at h'; cases h'
  · rintro ⟨pre, l, post, e, ⟨h1, a, h2⟩, h3⟩
    exact (parse_stop e h1 h2).1 h3

example : parseSatSolverOutput "c hi\ns UNSATISFIABLE\n".toList = .ok .unsat := by decide

example : parseSatSolverOutput "s SATISFIABLE\ns UNSATISFIABLE\n".toList = .ok .unsat := by decide

/-- **C46** (unknown): the same for the statuses `UNKNOWN` and `INDETERMINATE`. -/
theorem C46_unknown (t : Text) : parseSatSolverOutput t = .ok .unknown ↔
    ∃ pre l post, lines t = pre ++ l :: post ∧ Quiet pre ∧ SaysUnknown l := by
  constructor
  · intro h
    rcases parse_cases t with ⟨_, _, _, _, _, h'⟩ | ⟨_, _, h'⟩ | ⟨_, _, _, h'⟩ | ⟨pre, l, post, a, e, h1, h2, h3⟩
    · rw [h] at h'; cases h'
    · rw [h] at h'; cases h'
    · rw [h] at h'; cases h'
    rcases h3 with ⟨_, h'⟩ | ⟨h3, _⟩ | ⟨_, h'⟩ | ⟨_, _, _, h'⟩ | ⟨_, _, h'⟩
    · rw [h] at h'; cases h'
    · exact ⟨pre, l, post, e, ⟨h1, a, h2⟩, h3⟩
    all_goals rw [h] at h'; cases h'
  · rintro ⟨pre, l, post, e, ⟨h1, a, h2⟩, h3⟩
    exact (parse_stop e h1 h2).2.1 h3

example : parseSatSolverOutput "s  INDETERMINATE\n".toList = .ok .unknown := by decide

/-- **C46** (satisfiable): the reader reports a solution exactly if some line says `SATISFIABLE`, there is no other
status line, there is a value line, and the solution is what all the value lines, read one after the other, make of
the empty assignment. -/
theorem C46_sat (t : Text) (a : Assignment) : parseSatSolverOutput t = .ok (.sat a) ↔
    (∀ l ∈ lines t, StatusLine l → SaysSat l) ∧ (∃ l ∈ lines t, SaysSat l) ∧ (∃ l ∈ lines t, ValueLine l) ∧
    Collects Assignment.empty (lines t) a := by
  constructor
  · intro h
    rcases parse_cases t with ⟨a', h1, h2, h3, h4, h'⟩ | ⟨_, _, h'⟩ | ⟨_, _, _, h'⟩ | ⟨pre, l, post, a, e, h1, h2, h3⟩
    · rw [h] at h'
      cases h'
      refine ⟨fun l hl hs => ?_, h3, h4, h2⟩
      by_cases h : SaysSat l
      · exact h
      · exact absurd ⟨hs, h⟩ (h1 l hl)
    · rw [h] at h'; cases h'
    · rw [h] at h'; cases h'
    rcases h3 with ⟨_, h'⟩ | ⟨_, h'⟩ | ⟨_, h'⟩ | ⟨_, _, _, h'⟩ | ⟨_, _, h'⟩
    all_goals rw [h] at h'; cases h'
  · rintro ⟨h1, h2, h3, h4⟩
    exact (parse_quiet (fun l hl hd => hd.2 (h1 l hl hd.1)) h4).2.2 h2 h3

example : parseSatSolverOutput "c hi\nv -1 2\ns SATISFIABLE\nv 4 0\n".toList =
    .ok (.sat ⟨[.false, .true, .dontCare, .true]⟩) := by decide

/-- **C46** (no status): exactly if all value lines can be read and no line has a status. -/
theorem C46_no_status (t : Text) : parseSatSolverOutput t = .err .noSLine ↔
    (∃ a, Collects Assignment.empty (lines t) a) ∧ ∀ l ∈ lines t, ¬ StatusLine l := by
  constructor
  · intro h
    rcases parse_cases t with ⟨_, _, _, _, _, h'⟩ | ⟨h1, h2, _⟩ | ⟨_, _, _, h'⟩ | ⟨pre, l, post, a, e, h1, h2, h3⟩
    · rw [h] at h'; cases h'
    · refine ⟨h1.2, fun l hl hs => ?_⟩
      by_cases hx : SaysSat l
      · exact h2 ⟨l, hl, hx⟩
      · exact h1.1 l hl ⟨hs, hx⟩
    · rw [h] at h'; cases h'
    rcases h3 with ⟨_, h'⟩ | ⟨_, h'⟩ | ⟨_, h'⟩ | ⟨_, _, _, h'⟩ | ⟨_, _, h'⟩
    all_goals rw [h] at h'; cases h'
  · rintro ⟨⟨a, h1⟩, h2⟩
    exact (parse_quiet (fun l hl hd => h2 l hl hd.1) h1).1 fun ⟨l, hl, hs⟩ => h2 l hl hs.status

example : parseSatSolverOutput "v 1 2 0\n".toList = .err .noSLine := by decide

/-- **C46** (no solution): exactly if the only status is `SATISFIABLE` and there is no value line. -/
theorem C46_no_values (t : Text) : parseSatSolverOutput t = .err .noVLine ↔
    (∀ l ∈ lines t, StatusLine l → SaysSat l) ∧ (∃ l ∈ lines t, SaysSat l) ∧ ∀ l ∈ lines t, ¬ ValueLine l := by
  constructor
  · intro h
    rcases parse_cases t with ⟨_, _, _, _, _, h'⟩ | ⟨_, _, h'⟩ | ⟨h1, h2, h3, _⟩ | ⟨pre, l, post, a, e, h1, h2, h3⟩
    · rw [h] at h'; cases h'
    · rw [h] at h'; cases h'
    · refine ⟨fun l hl hs => ?_, h2, fun l hl hv => h3 ⟨l, hl, hv⟩⟩
      by_cases hx : SaysSat l
      · exact hx
      · exact absurd ⟨hs, hx⟩ (h1.1 l hl)
    rcases h3 with ⟨_, h'⟩ | ⟨_, h'⟩ | ⟨_, h'⟩ | ⟨_, _, _, h'⟩ | ⟨_, _, h'⟩
    all_goals rw [h] at h'; cases h'
  · rintro ⟨h1, h2, h3⟩
    have hc : ∀ (ls : List Text), (∀ l ∈ ls, ¬ ValueLine l) → Collects Assignment.empty ls Assignment.empty := by
      intro ls
      induction ls with
      | nil => exact fun _ => .nil
      | cons l ls ih =>
        exact fun h => .other (h l List.mem_cons_self) (ih fun l hl => h l (List.mem_cons_of_mem _ hl))
    exact (parse_quiet (fun l hl hd => hd.2 (h1 l hl hd.1)) (hc _ h3)).2.1 h2 fun ⟨l, hl, hv⟩ => h3 l hl hv

example : parseSatSolverOutput "s SATISFIABLE\nc hi\n".toList = .err .noVLine := by decide

/-- **C46** (bad status): exactly if the first decisive line is a status line without a known status. -/
theorem C46_bad_status (t : Text) : parseSatSolverOutput t = .err .invalidSLine ↔
    ∃ pre l post, lines t = pre ++ l :: post ∧ Quiet pre ∧ Malformed l := by
  constructor
  · intro h
    rcases parse_cases t with ⟨_, _, _, _, _, h'⟩ | ⟨_, _, h'⟩ | ⟨_, _, _, h'⟩ | ⟨pre, l, post, a, e, h1, h2, h3⟩
    · rw [h] at h'; cases h'
    · rw [h] at h'; cases h'
    · rw [h] at h'; cases h'
    rcases h3 with ⟨_, h'⟩ | ⟨_, h'⟩ | ⟨h3, _⟩ | ⟨_, _, _, h'⟩ | ⟨_, _, h'⟩
    · rw [h] at h'; cases h'
    · rw [h] at h'; cases h'
    · exact ⟨pre, l, post, e, ⟨h1, a, h2⟩, h3⟩
    all_goals rw [h] at h'; cases h'
  · rintro ⟨pre, l, post, e, ⟨h1, a, h2⟩, h3⟩
    exact (parse_stop e h1 h2).2.2.1 h3

example : parseSatSolverOutput "s OPTIMUM FOUND\nv 1 0\n".toList = .err .invalidSLine := by decide

/-- **C46** (bad values): exactly if, before any decisive line, a value line is rejected. -/
theorem C46_bad_values (t : Text) (err : InvalidVLine) : parseSatSolverOutput t = .err (.invalidVLine err) ↔
    ∃ pre l post a, lines t = pre ++ l :: post ∧ (∀ l ∈ pre, StatusLine l → SaysSat l) ∧ Collects Assignment.empty pre a ∧
      ValueLine l ∧ a.extendFromVline l = .err err := by
  constructor
  · intro h
    rcases parse_cases t with ⟨_, _, _, _, _, h'⟩ | ⟨_, _, h'⟩ | ⟨_, _, _, h'⟩ | ⟨pre, l, post, a, e, h1, h2, h3⟩
    · rw [h] at h'; cases h'
    · rw [h] at h'; cases h'
    · rw [h] at h'; cases h'
    rcases h3 with ⟨_, h'⟩ | ⟨_, h'⟩ | ⟨_, h'⟩ | ⟨hv, e', hx, h'⟩ | ⟨_, _, h'⟩
    · rw [h] at h'; cases h'
    · rw [h] at h'; cases h'
    · rw [h] at h'; cases h'
    · rw [h] at h'
      cases h'
      refine ⟨pre, l, post, a, e, fun l hl hs => ?_, h2, hv, hx⟩
      by_cases hx : SaysSat l
      · exact hx
      · exact absurd ⟨hs, hx⟩ (h1 l hl)
    · rw [h] at h'; cases h'
  · rintro ⟨pre, l, post, a, e, h1, h2, hv, hx⟩
    exact (parse_stop e (fun l hl hd => hd.2 (h1 l hl hd.1)) h2).2.2.2.1 err hv hx

example : parseSatSolverOutput "s SATISFIABLE\nv 1 a 0\n".toList = .err (.invalidVLine .invalidInt) := by decide

/-- **C46** (assignments from files): only a solution gives an assignment. -/
theorem C46_assignment (t : Text) (a : Assignment) :
    Assignment.fromSolverOutput t = .ok a ↔ parseSatSolverOutput t = .ok (.sat a) := by
  unfold Assignment.fromSolverOutput
  cases h : parseSatSolverOutput t with
  | ok r => cases r <;> simp
  | err e => simp
  | panic => simp

/-- **C46** (values, partial): if the value lines of a satisfiable output list literals of pairwise different variables,
in the formats of the SAT or PB competition, the solution is exactly the assignment of these literals. Missing: value
lines that consist of a single number made of the digits 0 and 1 only, see `C46_violated_single`. -/
theorem C46_values_partial {t : Text} {lits : List Lit} (h : SatOutput (lines t) lits)
    (hd : lits.Pairwise fun x y => x.var ≠ y.var) (hs : ∃ l ∈ lines t, SaysSat l) (hv : ∃ l ∈ lines t, ValueLine l) :
    parseSatSolverOutput t = .ok (.sat (Assignment.ofLits lits)) := by
  obtain ⟨h1, h2⟩ := h.collects
  exact (parse_quiet h1 (h2 Assignment.empty (fun l _ => Assignment.varValue_empty _) hd)).2.2 hs hv

/-- **C46** (values): the listed literals are true in the solution and nothing else is assigned. -/
theorem C46_values_meaning {lits : List Lit} (hd : lits.Pairwise fun x y => x.var ≠ y.var) :
    (∀ l ∈ lits, (Assignment.ofLits lits).litValue l = .true) ∧
    ∀ v, (∀ l ∈ lits, l.var ≠ v) → (Assignment.ofLits lits).varValue v = .dontCare := by
  have hkeep : ∀ (ls : List Lit) (a : Assignment) (v : Nat), (∀ l ∈ ls, l.var ≠ v) →
      (ls.foldl Assignment.assignLit a).varValue v = a.varValue v := by
    intro ls
    induction ls with
    | nil => exact fun _ _ _ => rfl
    | cons l ls ih =>
      intro a v h
      rw [List.foldl_cons, ih _ _ fun l hl => h l (List.mem_cons_of_mem _ hl), Assignment.varValue_assignLit,
        if_neg (fun e => h l List.mem_cons_self e.symm)]
  constructor
  · have : ∀ (ls : List Lit) (a : Assignment), Distinct ls → ∀ l ∈ ls, (ls.foldl Assignment.assignLit a).litValue l = .true := by
      intro ls
      induction ls with
      | nil => exact fun _ _ l hl => nomatch hl
      | cons x ls ih =>
        intro a hd l hl
        rw [List.foldl_cons]
        cases hl with
        | tail _ hl => exact ih _ hd.tail l hl
        | head =>
          have hk := hkeep ls (a.assignLit x) x.var fun y hy => (List.rel_of_pairwise_cons hd hy).symm
          rw [Assignment.varValue_assignLit, if_pos rfl] at hk
          unfold Assignment.litValue
          rw [hk]
          cases x.isNeg <;> rfl
    exact this lits _ hd
  · intro v h
    have := hkeep lits Assignment.empty v h
    rw [Assignment.varValue_empty] at this
    exact this

set_option maxRecDepth 4000 in
example : SatOutput (lines "s SATISFIABLE\nv -1 2 0\n".toList) [Lit.mk' 0 true, Lit.mk' 1 false] := by
  have e : lines "s SATISFIABLE\nv -1 2 0\n".toList = ["s SATISFIABLE".toList, "v -1 2 0".toList] := by decide
  rw [e]
  have hw : Words ([-1, 2, 0].map showInt) "-1 2 0".toList := .cons (w := []) (x := "-1".toList) (b := ' ') (by decide) (by decide) (by decide) (by decide)
    (.cons (w := []) (x := "2".toList) (b := ' ') (by decide) (by decide) (by decide) (by decide)
      (.last (w := []) (x := "0".toList) (by decide) (by decide) (by decide)))
  have hl : ListsLits [Lit.mk' 0 true, Lit.mk' 1 false] "v -1 2 0".toList := .satComp hw (by decide) (by decide) (by decide)
  exact .status ⟨[], [], (fun c hc => nomatch hc), rfl⟩ (.value (lits' := []) hl (by decide) .nil)

/-- **C46** (MaxSAT Evaluation format): the values of consecutive variables, in the order of the value lines; the single
line `v 0` is excluded, see `C46_violated_zero`. -/
theorem C46_bits_partial {t : Text} {bs : List Bool} (h : BitOutput (lines t) bs) (hs : ∃ l ∈ lines t, SaysSat l)
    (hv : ∃ l ∈ lines t, ValueLine l) :
    ∃ a, parseSatSolverOutput t = .ok (.sat a) ∧
      ∀ v, a.varValue v = match bs[v]? with | some true => .true | some false => .false | none => .dontCare := by
  obtain ⟨h1, h2⟩ := h.collects
  refine ⟨_, (parse_quiet h1 (h2 Assignment.empty)).2.2 hs hv, fun v => ?_⟩
  have e : (Assignment.empty.vals ++ bs.map bitVal) = bs.map bitVal := by
    rw [Assignment.empty]; simp
  unfold Assignment.varValue
  simp only [e, List.length_map, List.getElem_map]
  by_cases hlt : v ≥ bs.length
  · rw [dif_pos hlt, List.getElem?_eq_none hlt]
  · rw [dif_neg hlt, List.getElem?_eq_getElem (by omega)]
    cases bs[v] <;> rfl

set_option maxRecDepth 4000 in
example : BitOutput (lines "s SATISFIABLE\nv 0110\n".toList) [false, true, true, false] := by
  have e : lines "s SATISFIABLE\nv 0110\n".toList = ["s SATISFIABLE".toList, "v 0110".toList] := by decide
  rw [e]
  have hl : BitLine [false, true, true, false] "v 0110".toList := ⟨by decide, [], [], by decide, by decide, rfl⟩
  exact .status ⟨[], [], (fun c hc => nomatch hc), rfl⟩ (.value (bs' := []) hl (by decide) .nil)

/-- **C46 violated**: in the SAT competition format a line with the single literal 10 (or 1, 11, 100, …) is mistaken for
two values of consecutive variables: `x10` stays unassigned, and the unlisted `x3`, `x4` are assigned. -/
theorem C46_violated_single :
    parseSatSolverOutput "s SATISFIABLE\nv -1 2\nv 10\nv 0\n".toList =
      .ok (.sat ⟨[.false, .true, .true, .false]⟩) := by decide

/-- **C46 violated**: the value line `v 0` of a MaxSAT solution with one variable is read as an empty list of literals. -/
theorem C46_violated_zero : parseSatSolverOutput "s SATISFIABLE\nv 0\n".toList = .ok (.sat ⟨[]⟩) := by decide

/-- **C46 violated**: contradictory value lines are accepted, and a repeated negative literal is rejected. -/
theorem C46_violated_conflict :
    parseSatSolverOutput "s SATISFIABLE\nv 1 -1 0\n".toList = .ok (.sat ⟨[.false]⟩) ∧
    parseSatSolverOutput "s SATISFIABLE\nv -1 -1 0\n".toList = .err (.invalidVLine (.conflictingAssignment 0)) := by
  decide

/-- **C46 violated**: a value line can make the reader panic. -/
theorem C46_violated_panic : parseSatSolverOutput "s SATISFIABLE\nv x4294967295\n".toList = .panic := by decide

end RustSat
