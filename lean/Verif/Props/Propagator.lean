import Verif.Spec.Propagator
import Verif.Props.EncodeConstr
import Verif.Props.Propagate
import Verif.Lemmas.Opb
/-
C89: the tool that propagates assumptions.

Partial: the names in the output are not those of the input, an instance without variables makes the tool panic, and
assumptions on variables that the instance does not have may be taken for variables of encodings (`C89_violated_*`).
-/
namespace RustSat
namespace Propagator

theorem inRange_of {l : Lit} {n : Nat} (h : l.var < n) (hn : (n : Int) ≤ i32Max) : l.InRange :=
  Int.le_trans (Int.ofNat_le.2 h : ((l.var + 1 : Nat) : Int) ≤ (n : Int)) hn

theorem complete_of {p : P Lit} {s : Text} {l : Lit} (h : p s = .ok l []) : complete p s = .lit l := by
  unfold complete
  rw [h]

theorem digit_ne {c d : Char} (h : Text.isDigit c = true) (hd : Text.isDigit d = false) : c ≠ d := by
  rintro rfl
  rw [h] at hd
  cases hd

theorem showNat_cons (n : Nat) : ∃ c r, Text.showNat n = c :: r ∧ Text.isDigit c = true := by
  cases h : Text.showNat n with
  | nil => exact absurd h (Text.showNat_ne_nil n)
  | cons c r => exact ⟨c, r, rfl, Text.isDigit_showNat n c (by rw [h]; exact List.mem_cons_self)⟩

theorem notOpb_showInt (i : Int) : ("x".toList.isPrefixOf (Text.showInt i) || "~x".toList.isPrefixOf (Text.showInt i) ||
    "-x".toList.isPrefixOf (Text.showInt i)) = false := by
  have key : ∀ n : Nat, ∃ c r, Text.showNat n = c :: r ∧ c ≠ 'x' ∧ c ≠ '~' ∧ c ≠ '-' := by
    intro n
    obtain ⟨c, r, e, hd⟩ := showNat_cons n
    exact ⟨c, r, e, digit_ne hd (by decide), digit_ne hd (by decide), digit_ne hd (by decide)⟩
  unfold Text.showInt
  split
  all_goals
    rename_i hn
    obtain ⟨c, r, e, h1, h2, h3⟩ := key _
    first
    | rw [e]
    simp [List.isPrefixOf, h1.symm, h2.symm, h3.symm]

theorem parseAssump_names {opts : Opb.Options} {l : Lit} {s : Text} (h : Names opts.firstVarIdx l s) :
    parseAssump opts s = .lit l := by
  unfold parseAssump
  rcases h with h | ⟨h, rfl⟩
  · have hp : Opb.literal opts s = .ok l [] := by
      have := OpbSpec.literal_ok (s := []) h (fun c r e => by cases e)
      rwa [List.append_nil] at this
    have hx : ("x".toList.isPrefixOf s || "~x".toList.isPrefixOf s || "-x".toList.isPrefixOf s) = true := by
      cases h <;> simp [List.isPrefixOf]
    rw [if_pos hx]
    exact complete_of hp
  · rw [if_neg (by rw [notOpb_showInt]; decide)]
    have := DimacsSpec.lit_ok (l := l) (s := []) h (fun c r e => by cases e)
    rw [List.append_nil] at this
    exact complete_of this

theorem parseAssumps_names {opts : Opb.Options} : ∀ {A : List Lit} {args : List Text},
    NamesAll opts.firstVarIdx A args → parseAssumps opts args = .ok A
  | [], [], _ => rfl
  | l :: A, s :: args, h => by
    unfold parseAssumps
    rw [parseAssump_names h.1, parseAssumps_names h.2]
  | [], _ :: _, h => h.elim
  | _ :: _, [], h => h.elim

/-- C89: the names in the output are those of an OPB file whose first variable has the index zero. -/
theorem C89_names_partial {l : Lit} (h : l.var ≤ 2147483647) : Names 0 l (showLit l) := by
  have hl : Lit.mk' l.var l.isNeg = l := Lit.mk'_var_isNeg l
  unfold showLit
  cases hn : l.isNeg with
  | true =>
    rw [hn] at hl
    have := OpbSpec.LitText.tilde (first := 0) (v := l.var) h (by omega)
    rw [show Lit.negOf l.var = l from hl] at this
    exact .inl this
  | false =>
    rw [hn] at hl
    have := OpbSpec.LitText.pos (first := 0) (v := l.var) h (by omega)
    rw [show Lit.pos l.var = l from hl] at this
    exact .inl this

theorem line_named (ls : List Lit) : NamedLine ls (line ls) := by
  refine ⟨showLit, ?_, fun l h => C89_names_partial h⟩
  induction ls with
  | nil => rfl
  | cons l ls ih =>
    cases ls with
    | nil => simp [line]
    | cons k ls =>
      rw [line, ih]
      · simp [List.intercalate_cons_cons]
      · nofun

section
variable {H : Type} [Cadical H] [LawfulCadical H]

theorem addCnf_ok : ∀ (cs : ClauseSet) (n : Native H) (F : ClauseSet), CadicalReach n F none none →
    (∀ c ∈ cs, ∀ l ∈ c, l.InRange) → ∃ n', addCnf n cs = some n' ∧ CadicalReach n' (F ++ cs) none none
  | [], n, F, h, _ => ⟨n, rfl, by rw [List.append_nil]; exact h⟩
  | c :: cs, n, F, h, hr => by
    obtain ⟨n1, e1⟩ := ((C70_states_partial h).2.2.1 c (hr c List.mem_cons_self)).1
    obtain ⟨n2, e2, h2⟩ := addCnf_ok cs n1 (F ++ [c]) (h.add e1) fun d hd => hr d (List.mem_cons_of_mem _ hd)
    refine ⟨n2, ?_, by simpa using h2⟩
    unfold addCnf
    rw [e1]
    exact e2

omit [LawfulCadical H] in
theorem propagated_eq {inst : SatInstance BasicVM} {A : List Lit} {cnf : ClauseSet} {vm : BasicVM} {v : Nat} {n : Native H}
    {r : PropagateResult} (h1 : inst.intoCnf = some (cnf, vm)) (h2 : ManageVars.maxVar vm = some v)
    (h3 : load H v cnf = some n) (h4 : (n.propagate A).1 = .ok r) :
    propagated H inst A = if r.conflict then .error .conflict else .ok r.propagated := by
  unfold propagated
  rw [h1, withCnf, h2, withMaxVar, h3, withSolver, h4, finish]

omit [LawfulCadical H] in
theorem main_eq {opts : Opb.Options} {inst : SatInstance BasicVM} {args : List Text} {A ls : List Lit} {b : Bool}
    (h1 : parseAssumps opts args = .ok A)
    (h2 : propagated H inst A = if b then .error .conflict else .ok ls) :
    main H opts inst args = if b then .conflict else .printed (line ls) := by
  unfold main
  simp only [h1, h2]
  cases b <;> rfl

/-- C89: if the assumptions are on variables of the instance then the tool reports a conflict only if no solution of the
instance has these assumptions, and otherwise prints literals of which those on variables of the instance follow.
(`_partial`: the names in the output, instances without variables and assumptions on other variables are not covered, see
`C89_violated_*`; and the instance must be such that the conversion works, see C38.) -/
theorem C89_partial {opts : Opb.Options} {inst : SatInstance BasicVM} {A : List Lit} {args : List Text} (hk : inst.Known)
    (hr : ∀ c ∈ inst.pbs, c.Regular) (hargs : NamesAll opts.firstVarIdx A args)
    (hA : ∀ l ∈ A, l.var < ManageVars.nUsed inst.vm) (hne : 0 < ManageVars.nUsed inst.vm)
    (hsize : ∀ cnf vm, inst.intoCnf = some (cnf, vm) → (ManageVars.nUsed vm : Int) ≤ i32Max) :
    (main H opts inst args = .conflict ∧ ¬ ∃ a, inst.sat a ∧ ∀ k ∈ A, k.holds a = true) ∨
    ∃ ls text, main H opts inst args = .printed text ∧ NamedLine ls text ∧
      ∀ l ∈ ls, l.var < ManageVars.nUsed inst.vm → Follows inst A l := by
  obtain ⟨new, vm', e1, _, _, hle, hcomp, hvars⟩ := C38_partial inst hk hr
  have hsz := hsize _ _ e1
  have hpos : 0 < ManageVars.nUsed vm' := Nat.lt_of_lt_of_le hne hle
  have hmax : ManageVars.maxVar vm' = some (ManageVars.nUsed vm' - 1) := by
    rw [LawfulVM.maxVar, if_neg (Nat.ne_of_gt hpos)]
  have hrange : ∀ c ∈ inst.cnf ++ new, ∀ l ∈ c, l.InRange := by
    intro c hc l hl
    rcases hvars c hc l hl with h | h
    · exact inRange_of (Nat.lt_of_lt_of_le (hk _ h) hle) hsz
    · exact inRange_of h.2 hsz
  obtain ⟨n1, er⟩ := (C70_states_partial (CadicalReach.new (H := H))).2.2.2.1 (ManageVars.nUsed vm' - 1)
    (inRange_of (by rw [Lit.var_pos]; exact Nat.sub_lt hpos Nat.one_pos) hsz)
  obtain ⟨n2, ea, h2⟩ := addCnf_ok (inst.cnf ++ new) n1 [] (CadicalReach.new.reserve er) hrange
  rw [List.nil_append] at h2
  obtain ⟨r, n3, ep, _, himp, hconf, _, _⟩ := C88_cadical_partial h2 A
    (fun l hl => inRange_of (Nat.lt_of_lt_of_le (hA l hl) hle) hsz)
  have hext : ∀ a, inst.sat a → (∀ k ∈ A, k.holds a = true) → ∃ b, (∀ v, v < ManageVars.nUsed inst.vm → b v = a v) ∧
      ClauseSet.sat b (inst.cnf ++ new ++ units A) := by
    intro a ha hka
    obtain ⟨b, hb, hs⟩ := hcomp a ha
    refine ⟨b, fun v hv => hb v (.inl hv), fun c hc => ?_⟩
    rcases List.mem_append.1 hc with hc | hc
    · exact hs c hc
    · obtain ⟨k, hkA, rfl⟩ := List.mem_map.1 hc
      refine ⟨k, List.mem_cons_self, ?_⟩
      rw [← hka k hkA]
      exact Lit.holds_congr (hb _ (.inl (hA k hkA)))
  have hprop : propagated H inst A = if r.conflict then .error .conflict else .ok r.propagated :=
    propagated_eq e1 hmax (by unfold load; rw [er, Option.bind_some, ea]) (by rw [ep])
  rw [main_eq (parseAssumps_names hargs) hprop]
  cases hc : r.conflict with
  | true =>
    refine .inl ⟨rfl, fun ⟨a, ha, hka⟩ => ?_⟩
    obtain ⟨b, _, hb⟩ := hext a ha hka
    have := (hconf hc).1
    rw [Option.toList_none, List.append_nil] at this
    exact this ⟨b, hb⟩
  | false =>
    refine .inr ⟨r.propagated, _, rfl, line_named _, fun l hl hv a ha hka => ?_⟩
    obtain ⟨b, hb1, hb2⟩ := hext a ha hka
    rw [← himp rfl l hl b hb2]
    exact Lit.holds_congr (hb1 _ hv).symm

end

/-- The clauses `x1` and `¬x1 ∨ x2 ∨ x3`, in the names of DIMACS files. -/
def demo : SatInstance BasicVM := ⟨[[Lit.pos 0], [Lit.negOf 0, Lit.pos 1, Lit.pos 2]], [], [], ⟨3⟩⟩

/-- The hypotheses hold for an instance with assumptions that are given in both ways. -/
example : demo.Known ∧ NamesAll 1 [Lit.negOf 2, Lit.pos 0] ["~x3".toList, "1".toList] ∧
    main ToyLib Opb.Options.dflt demo ["~x3".toList, "1".toList] = .printed "x0,~x2,x0".toList ∧
    main ToyLib Opb.Options.dflt demo ["-1".toList] = .conflict ∧
    main ToyLib Opb.Options.dflt demo ["y".toList] = .error := by
  refine ⟨?_, ⟨.inl (.tilde (v := 2) (by decide) (by decide)), .inr ⟨by decide, by decide⟩, trivial⟩, by decide, by decide, by decide⟩
  rintro v (⟨c, hc, l, hl, rfl⟩ | ⟨c, hc, _⟩ | ⟨c, hc, _⟩)
  · have : ∀ c ∈ demo.cnf, ∀ l ∈ c, l.var < 3 := by decide
    exact this c hc l hl
  · cases hc
  · cases hc

/-- C89 is violated: variables are printed with the lowest index 0 but read with the lowest index 1. For the instance with the
clause `x1`, the tool prints `x0`, which names nothing in the input; with the clause `x2`, it prints `x1`, which names
another variable, and which does not follow. -/
theorem C89_violated_names :
    main ToyLib Opb.Options.dflt ⟨[[Lit.pos 1]], [], [], ⟨2⟩⟩ [] = .printed "x1".toList ∧
    Names 1 (Lit.pos 0) "x1".toList ∧ ¬ Follows ⟨[[Lit.pos 1]], [], [], ⟨2⟩⟩ [] (Lit.pos 0) ∧
    main ToyLib Opb.Options.dflt ⟨[[Lit.pos 0]], [], [], ⟨1⟩⟩ [] = .printed "x0".toList ∧ ∀ l, ¬ Names 1 l "x0".toList := by
  refine ⟨by decide, .inl (.pos (v := 0) (by decide) (by decide)), fun h => ?_, by decide, fun l h => ?_⟩
  · have := h (fun v => v == 1) ⟨by unfold ClauseSet.sat Clause.sat; decide, nofun, nofun⟩ nofun
    exact absurd this (by decide)
  · have := parseAssump_names (opts := Opb.Options.dflt) h
    rw [show parseAssump Opb.Options.dflt "x0".toList = .error from by decide] at this
    cases this

/-- C89 is violated: an instance without variables makes the tool panic. -/
theorem C89_violated_no_variables : main ToyLib Opb.Options.dflt ⟨[], [], [], ⟨0⟩⟩ [] = .panic := by decide

/-- C89 is violated: the tool reports a conflict for an assumption on a variable that the instance does not have, as the
number of this variable is used by the encoding of a constraint. -/
theorem C89_violated_other_variable :
    main ToyLib Opb.Options.dflt ⟨[], [.lb [Lit.pos 0, Lit.pos 1, Lit.negOf 2] 2], [], ⟨3⟩⟩ ["-6".toList] = .conflict ∧
    ∃ a, SatInstance.sat a (⟨[], [.lb [Lit.pos 0, Lit.pos 1, Lit.negOf 2] 2], [], ⟨3⟩⟩ : SatInstance BasicVM) ∧
      (Lit.negOf 5).holds a = true := by
  refine ⟨by decide, fun v => v < 2, ⟨nofun, fun c hc => ?_, nofun⟩, by decide⟩
  rw [List.mem_singleton.1 hc]
  unfold CardConstraint.sat
  decide

end Propagator
end RustSat
