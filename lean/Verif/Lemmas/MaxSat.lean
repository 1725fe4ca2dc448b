import Verif.Spec.MaxSat
import Verif.Lemmas.Mono
import Verif.Lemmas.Assignment
/-
Correctness of solution-improving search, for any monotone encoding.
-/
namespace RustSat
open Card

theorem varValue_solution (mv : Nat) (val : Nat → TernaryVal) (v : Nat) :
    (solution mv val).varValue v = if v ≤ mv then val v else .dontCare := by
  rw [Assignment.varValue_eq]
  unfold solution
  by_cases h : v ≤ mv
  · rw [if_pos h, List.getElem?_map, List.getElem?_range (by omega)]; rfl
  · rw [if_neg h, List.getElem?_map, List.getElem?_eq_none (by simp; omega)]; rfl

theorem completedBy_solution {mv : Nat} {val : Nat → TernaryVal} {b : Asg} :
    (solution mv val).completedBy b ↔ Completes mv val b := by
  unfold Assignment.completedBy Completes
  constructor
  · intro h v hv
    have := h v
    rwa [varValue_solution, if_pos hv] at this
  · intro h v
    rw [varValue_solution]
    by_cases hv : v ≤ mv
    · rw [if_pos hv]; exact h v hv
    · rw [if_neg hv]; exact ⟨(fun h => by cases h), (fun h => by cases h)⟩

theorem objectiveValue_eq {obj : List (Lit × Nat)} {sol : Assignment} {b : Asg}
    (h : ∀ x ∈ obj, sol.litValue x.1 = .true ↔ x.1.holds b = true) : objectiveValue obj sol = wsum b obj := by
  have key : ∀ (obj : List (Lit × Nat)) n, (∀ x ∈ obj, sol.litValue x.1 = .true ↔ x.1.holds b = true) →
      obj.foldl (fun sum x => if sol.litValue x.1 = .true then sum + x.2 else sum) n = n + wsum b obj := by
    intro obj
    induction obj with
    | nil => intro n _; rfl
    | cons x obj ih =>
      intro n h
      obtain ⟨l, w⟩ := x
      have hx := h (l, w) (by simp)
      simp only [List.foldl_cons, wsum]
      rw [ih _ fun y hy => h y (by simp [hy])]
      by_cases hl : sol.litValue l = .true
      · rw [if_pos hl, if_pos (hx.1 hl)]; omega
      · rw [if_neg hl, if_neg fun h1 => hl (hx.2 h1)]; omega
  unfold objectiveValue
  rw [key obj 0 h]; omega

/-- Completing values such that the objective is as the search computes it. -/
theorem completion {mv : Nat} {val : Nat → TernaryVal} {obj : List (Lit × Nat)}
    (h : OnePolarity obj ∨ ∀ v, v ≤ mv → val v ≠ .dontCare) (hv : ∀ x ∈ obj, x.1.var ≤ mv) :
    ∃ b, Completes mv val b ∧ objectiveValue obj (solution mv val) = wsum b obj := by
  let b : Asg := fun v => match val v with
    | .true => true
    | .false => false
    | .dontCare => obj.any fun x => x.1.isNeg && (x.1.var == v)
  have hb : Completes mv val b := fun v _ => ⟨fun h => by simp only [b, h], fun h => by simp only [b, h]⟩
  refine ⟨b, hb, objectiveValue_eq fun x hx => ?_⟩
  have hc := Assignment.holds_of_litValue (completedBy_solution.2 hb) x.1
  refine ⟨hc.1, fun hh => ?_⟩
  cases hl : (solution mv val).litValue x.1 with
  | true => rfl
  | false => rw [hc.2 hl] at hh; cases hh
  | dontCare =>
    exfalso
    have hd : val x.1.var = .dontCare := by
      have : (solution mv val).varValue x.1.var = .dontCare := by
        unfold Assignment.litValue at hl
        cases hn : x.1.isNeg <;> cases hq : (solution mv val).varValue x.1.var <;> simp [hn, hq] at hl ⊢
      rwa [varValue_solution, if_pos (hv x hx)] at this
    rcases h with h | h
    · unfold Lit.holds at hh
      have hbv : b x.1.var = obj.any fun y => y.1.isNeg && (y.1.var == x.1.var) := by simp only [b, hd]
      rw [hbv] at hh
      cases hn : x.1.isNeg with
      | true =>
        rw [hn] at hh
        have : (obj.any fun y => y.1.isNeg && (y.1.var == x.1.var)) = true := List.any_eq_true.2 ⟨x, hx, by simp [hn]⟩
        rw [this] at hh
        simp at hh
      | false =>
        rw [hn] at hh
        have : (obj.any fun y => y.1.isNeg && (y.1.var == x.1.var)) = true := by simpa using hh
        obtain ⟨y, hy, h2⟩ := List.any_eq_true.1 this
        simp only [Bool.and_eq_true, beq_iff_eq] at h2
        have := h y hy x hx h2.2
        rw [h2.1, hn] at this
        cases this
    · exact h _ (hv x hx) hd

section
variable {E : Type} [Encoder E (Lit × Nat)] [BoundUpper E BasicVM] [EnforceUb E] [LawfulMono E (Lit × Nat) BasicVM]

/-- What holds whenever the solver is called: all models of the clauses in the solver are solutions of value less than
`B`, and all canonical assignments that are such solutions are models. -/
structure SearchInv (F : ClauseSet) (obj : List (Lit × Nat)) (mv B : Nat) (enc : E) (vm : BasicVM) (cls encCls : ClauseSet)
    (own : List Nat) (C : Asg → Prop) : Prop where
  inv : LawfulMono.Inv BasicVM enc (ManageVars.nUsed vm) encCls obj own C
  fresh : mv < ManageVars.nUsed vm
  own : ∀ v ∈ own, mv < v
  enc : ∀ m, ClauseSet.sat m cls → ClauseSet.sat m encCls
  sound : ∀ m, ClauseSet.sat m cls → ClauseSet.sat m F ∧ wsum m obj < B
  complete : ∀ m, C m → ClauseSet.sat m F → wsum m obj < B → ClauseSet.sat m cls

/-- The best solution so far. -/
def SolOk (F : ClauseSet) (obj : List (Lit × Nat)) (B : Nat) : Option (Assignment × Nat) → Prop
  | none => ∀ m, wsum m obj < B
  | some (sol, c) => c = B ∧ (∀ b, sol.completedBy b → ClauseSet.sat b F) ∧ ∃ b, sol.completedBy b ∧ wsum b obj = c

omit [Encoder E (Lit × Nat)] [BoundUpper E BasicVM] [EnforceUb E] [LawfulMono E (Lit × Nat) BasicVM] in
theorem units_sat {m : Asg} {A : List Lit} : ClauseSet.sat m (A.map fun l => [l]) ↔ cubeSat m A := by
  simp [ClauseSet.sat, Clause.sat, cubeSat]

theorem handedOut_gt {vm vm' : BasicVM} {v : Nat} (h : v ∈ CardWorld.handedOut vm vm') : ManageVars.nUsed vm ≤ v := by
  unfold CardWorld.handedOut at h
  simp at h
  omega

/-- With the integer cost used in the specification. -/
def SearchResult.toInt : SearchResult (Option (Assignment × Nat)) → SearchResult (Option (Assignment × Int))
  | .done r => .done (r.map fun x => (x.1, (x.2 : Int)))
  | .panic => .panic
  | .running => .running

theorem searchLoop_spec {F : ClauseSet} {obj : List (Lit × Nat)} {mv : Nat} {oracle : Nat → ClauseSet → SolverAnswer}
    {order : Nat → E → E} (hF : ∀ c ∈ F, ∀ l ∈ c, l.var ≤ mv) (hobj : ∀ x ∈ obj, x.1.var ≤ mv)
    (horacle : CorrectSolver mv oracle) (hdc : OnePolarity obj ∨ TotalSolver mv oracle)
    (horder : ∀ call e, LawfulMono.same BasicVM e (order call e)) :
    ∀ (fuel B call : Nat) (enc : E) (vm : BasicVM) (cls encCls : ClauseSet) (own : List Nat) (C : Asg → Prop)
      (sol : Option (Assignment × Nat)), B < fuel → SearchInv F obj mv B enc vm cls encCls own C → SolOk F obj B sol →
      IsResult (fun b => ClauseSet.sat b F) (fun b => (wsum b obj : Int))
        (searchLoop oracle order mv obj fuel call enc vm cls sol).toInt := by
  have congr : ∀ {a b : Asg}, (∀ v, v ≤ mv → a v = b v) → (ClauseSet.sat a F ↔ ClauseSet.sat b F) ∧ wsum a obj = wsum b obj :=
    fun h => ⟨ClauseSet.sat_congr_vars fun c hc l hl => h _ (hF c hc l hl),
      wsum_congr fun x hx => Lit.holds_congr (h _ (hobj x hx))⟩
  intro fuel
  induction fuel with
  | zero => intro B _ _ _ _ _ _ _ _ h; omega
  | succ fuel ih =>
    intro B call enc vm cls encCls own C sol hB hi hsol
    have ho := horacle call cls
    unfold searchLoop
    cases hans : oracle call cls with
    | fail => rw [hans] at ho; exact ho.elim
    | unsat =>
      rw [hans] at ho
      have hno : ∀ b, ClauseSet.sat b F → ¬ wsum b obj < B := by
        intro b hb hlt
        obtain ⟨m, h1, h2⟩ := LawfulMono.canon_ext _ _ _ _ _ _ hi.inv b
        obtain ⟨h3, h4⟩ := congr (a := m) (b := b) fun v hv => h1 v fun hw => by have := hi.own v hw; omega
        exact ho ⟨m, hi.complete m h2 (h3.2 hb) (by omega)⟩
      cases sol with
      | none => rintro ⟨b, hb⟩; exact hno b hb (hsol b)
      | some x =>
        obtain ⟨sol, c⟩ := x
        obtain ⟨rfl, h1, b, h2, h3⟩ := hsol
        exact ⟨h1, ⟨b, h2, by simp [h3]⟩, fun b hb => by have := hno b hb; omega⟩
    | sat val =>
      rw [hans] at ho
      simp only at ho ⊢
      obtain ⟨b, hb, hval⟩ := completion (val := val) (mv := mv) (hdc.imp id fun h => h call cls val hans) hobj
      have hgood : ∀ b, (solution mv val).completedBy b → ClauseSet.sat b F := by
        intro b' hb'
        obtain ⟨m, h1, h2⟩ := ho b' (completedBy_solution.1 hb')
        exact (congr h1).1.1 (hi.sound m h2).1
      obtain ⟨m, h1, h2⟩ := ho b hb
      have hlt : objectiveValue obj (solution mv val) < B := by
        rw [hval, ← (congr h1).2]; exact (hi.sound m h2).2
      have hatt : ∃ b, (solution mv val).completedBy b ∧ wsum b obj = objectiveValue obj (solution mv val) :=
        ⟨b, completedBy_solution.2 hb, hval.symm⟩
      generalize objectiveValue obj (solution mv val) = c at hlt hatt
      by_cases h0 : c = 0
      · rw [if_pos h0]
        obtain ⟨b, hb1, hb2⟩ := hatt
        exact ⟨hgood, ⟨b, hb1, by simp [hb2]⟩, fun b _ => by subst h0; simp⟩
      · rw [if_neg h0]
        obtain ⟨e', vm', new, C', e1, hle, inv', hC, hen⟩ := LawfulMono.encodeUb (order call enc) vm encCls obj own C
          ⟨.incl (c - 1), .excl c⟩ cls (LawfulMono.same_inv _ _ _ _ _ _ _ hi.inv (horder call enc))
        obtain ⟨A, hA, hsnd⟩ := hen (c - 1) (by simp [URange.contains]; omega)
        rw [e1]
        simp only [hA]
        refine ih c (call + 1) e' vm' _ (encCls ++ new) _ C' _ (by omega) ⟨inv', Nat.lt_of_lt_of_le hi.fresh hle, ?_, ?_, ?_, ?_⟩
          ⟨rfl, hgood, hatt⟩
        · intro v hv
          rcases List.mem_append.1 hv with hv | hv
          · exact hi.own v hv
          · exact Nat.lt_of_lt_of_le hi.fresh (handedOut_gt hv)
        · intro m hm
          rw [ClauseSet.sat_append, ClauseSet.sat_append] at hm
          exact (ClauseSet.sat_append _ _ _).2 ⟨hi.enc m hm.1.1, hm.1.2⟩
        · intro m hm
          rw [ClauseSet.sat_append, ClauseSet.sat_append, units_sat] at hm
          refine ⟨(hi.sound m hm.1.1).1, ?_⟩
          have := hsnd m ((ClauseSet.sat_append _ _ _).2 ⟨hi.enc m hm.1.1, hm.1.2⟩) hm.2
          rw [Item.value_weighted] at this
          omega
        · intro m hm hs hv
          have h3 := LawfulMono.canon_sat _ _ _ _ _ _ inv' m hm
          have h4 := LawfulMono.canon_enforce _ _ _ _ _ _ inv' (c - 1) A hA m hm (by rw [Item.value_weighted]; omega)
          rw [ClauseSet.sat_append, ClauseSet.sat_append, units_sat]
          exact ⟨⟨hi.complete m (hC m hm) hs (by omega), ((ClauseSet.sat_append _ _ _).1 h3).2⟩, h4⟩

theorem solutionImproving_spec {F : ClauseSet} {obj : List (Lit × Nat)} {mv : Nat} {oracle : Nat → ClauseSet → SolverAnswer}
    {order : Nat → E → E} (hF : ∀ c ∈ F, ∀ l ∈ c, l.var ≤ mv) (hobj : ∀ x ∈ obj, 0 < x.2 ∧ x.1.var ≤ mv)
    (hd : (obj.map (·.1)).Nodup)
    (horacle : CorrectSolver mv oracle) (hdc : OnePolarity obj ∨ TotalSolver mv oracle)
    (horder : ∀ call e, LawfulMono.same BasicVM e (order call e)) (fuel : Nat) (hfuel : (obj.map (·.2)).sum + 1 < fuel) :
    IsResult (fun b => ClauseSet.sat b F) (fun b => (wsum b obj : Int))
      (solutionImproving E oracle order fuel (some mv) F obj).toInt := by
  obtain ⟨C, hC⟩ := LawfulMono.new (VM := BasicVM) (E := E) obj (mv + 1) hd fun x hx => ⟨(hobj x hx).1, Nat.lt_succ_of_le (hobj x hx).2⟩
  have hlt : ∀ m, wsum m obj < (obj.map (·.2)).sum + 1 := by
    intro m
    have := Item.value_le m obj
    rw [Item.value_weighted] at this
    exact Nat.lt_succ_of_le this
  unfold solutionImproving
  refine searchLoop_spec hF (fun x hx => (hobj x hx).2) horacle hdc horder fuel ((obj.map (·.2)).sum + 1) 0 _ _ F [] [] C none
    hfuel ⟨hC, Nat.lt_succ_self mv, by simp, (fun m _ c hc => by cases hc), fun m hm => ⟨hm, hlt m⟩, fun m _ hm _ => hm⟩ hlt

end
end RustSat
