import Verif.Spec.Tools
import Verif.Lemmas.OptConv
import Verif.Props.Types
import Verif.Props.Solvers
import Verif.Props.Instance
/-
Property theorems C58 (enumerating solutions).
-/
namespace RustSat

section
variable {S : Type} [Solve S] [LawfulIncremental S]

/-! ### Counting -/

theorem countP_lt {α : Type} {p q : α → Bool} {l : List α} (h : ∀ x ∈ l, p x = true → q x = true)
    {y : α} (hy : y ∈ l) (h1 : p y = false) (h2 : q y = true) : l.countP p < l.countP q := by
  induction l with
  | nil => cases hy
  | cons x l ih =>
    have hle : l.countP p ≤ l.countP q := List.countP_mono_left fun z hz => h z (List.mem_cons_of_mem _ hz)
    rcases List.mem_cons.1 hy with rfl | hy
    · rw [List.countP_cons_of_neg (by simp [h1]), List.countP_cons_of_pos h2]; omega
    · have := ih (fun z hz => h z (List.mem_cons_of_mem _ hz)) hy
      by_cases hx : p x = true
      · rw [List.countP_cons_of_pos hx, List.countP_cons_of_pos (h x List.mem_cons_self hx)]; omega
      · rw [List.countP_cons_of_neg hx]
        by_cases hq : q x = true
        · rw [List.countP_cons_of_pos hq]; omega
        · rw [List.countP_cons_of_neg hq]; omega

/-- All lists of `n` truth values. -/
def allPoints : Nat → List (List Bool)
  | 0 => [[]]
  | n + 1 => (allPoints n).map (true :: ·) ++ (allPoints n).map (false :: ·)

theorem length_allPoints (n : Nat) : (allPoints n).length = 2 ^ n := by
  induction n with
  | zero => rfl
  | succ n ih => simp [allPoints, ih]; omega

theorem mem_allPoints {n : Nat} {p : List Bool} (h : p.length = n) : p ∈ allPoints n := by
  induction n generalizing p with
  | zero => simp [allPoints, List.length_eq_zero_iff.1 h]
  | succ n ih =>
    match p, h with
    | b :: p, h =>
      have := ih (p := p) (by simpa using h)
      cases b <;> simp [allPoints, this]

/-- The values of the variables up to `mv`. -/
def point (mv : Nat) (m : Asg) : List Bool := (List.range (mv + 1)).map m

theorem point_eq {mv : Nat} {m b : Asg} (h : point mv m = point mv b) : ∀ v, v ≤ mv → m v = b v := by
  intro v hv
  have := congrArg (fun l => l[v]?) h
  simpa [point, show v < mv + 1 by omega] using this

open Classical in
/-- The number of solutions of the clauses on the variables up to `mv`. -/
noncomputable def nPoints (mv : Nat) (F : ClauseSet) : Nat :=
  (allPoints (mv + 1)).countP fun p => decide (∃ m, ClauseSet.sat m F ∧ point mv m = p)

theorem nPoints_le (mv : Nat) (F : ClauseSet) : nPoints mv F ≤ 2 ^ (mv + 1) := by
  rw [← length_allPoints]; exact List.countP_le_length

/-! ### The enumeration -/

theorem solverSolution_spec {s : S} (mv : Nat) (h : ∀ v, ∃ t, Solve.litVal s (Lit.pos v) = some t ∧
      Solve.litVal s (Lit.negOf v) = some t.not) :
    ∃ sol, solverSolution s mv = some sol ∧ sol.vals.length = mv + 1 ∧
      (∀ v, v ≤ mv → Solve.litVal s (Lit.pos v) = some (sol.varValue v)) ∧ ∀ v, mv < v → sol.varValue v = .dontCare := by
  have key : ∀ n, ∃ ts : List TernaryVal, ((List.range n).mapM fun v => Solve.litVal s (Lit.pos v)) = some ts ∧
      ts.length = n ∧ ∀ v, v < n → Solve.litVal s (Lit.pos v) = some ((ts[v]?).getD .dontCare) := by
    intro n
    induction n with
    | zero => exact ⟨[], rfl, rfl, fun v hv => by omega⟩
    | succ n ih =>
      obtain ⟨ts, h1, h2, h3⟩ := ih
      obtain ⟨t, ht, -⟩ := h n
      refine ⟨ts ++ [t], ?_, by simp [h2], fun v hv => ?_⟩
      · rw [List.range_succ, List.mapM_append, h1]
        simp [ht]
      · by_cases hv' : v < n
        · rw [h3 v hv', List.getElem?_append_left (by omega)]
        · have : v = n := by omega
          subst this
          rw [ht, List.getElem?_append_right (by omega)]
          simp [h2]
  obtain ⟨ts, h1, h2, h3⟩ := key (mv + 1)
  refine ⟨⟨ts⟩, by rw [solverSolution, h1]; rfl, h2, fun v hv => ?_, fun v hv => ?_⟩
  · rw [h3 v (by omega), Assignment.varValue_eq]
  · rw [Assignment.varValue_eq, List.getElem?_eq_none (by show ts.length ≤ v; omega)]; rfl

theorem sat_block {sol : Assignment} {ls : List Lit} (h : ∀ l, l ∈ ls ↔ sol.litValue l = .true) (m : Asg) :
    Clause.sat m (ls.map Lit.neg) ↔ ¬ sol.completedBy m := by
  constructor
  · rintro ⟨l, hl, hm⟩ hc
    obtain ⟨l', hl', rfl⟩ := List.mem_map.1 hl
    have := holds_of_litValue_true hc ((h l').1 hl')
    simp [this] at hm
  · intro hc
    by_cases hx : ∃ l ∈ ls, l.holds m = false
    · obtain ⟨l, hl, hm⟩ := hx
      exact ⟨l.neg, List.mem_map.2 ⟨l, hl, rfl⟩, by simp [hm]⟩
    · exfalso
      apply hc
      intro v
      refine ⟨fun hv => ?_, fun hv => ?_⟩
      · have hl : Lit.pos v ∈ ls := (h _).2 (by simp [Assignment.litValue, hv])
        cases hm : m v with
        | true => rfl
        | false => exact absurd ⟨_, hl, by simp [hm]⟩ hx
      · have hl : Lit.negOf v ∈ ls := (h _).2 (by simp [Assignment.litValue, hv])
        cases hm : m v with
        | false => rfl
        | true => exact absurd ⟨_, hl, by simp [hm]⟩ hx

theorem completedBy_congr {mv : Nat} {sol : Assignment} (hv : ∀ v, mv < v → sol.varValue v = .dontCare) {m b : Asg}
    (h : ∀ v, v ≤ mv → m v = b v) : sol.completedBy m ↔ sol.completedBy b := by
  have : ∀ v, (sol.varValue v = .true → m v = true) ∧ (sol.varValue v = .false → m v = false) ↔
      (sol.varValue v = .true → b v = true) ∧ (sol.varValue v = .false → b v = false) := by
    intro v
    by_cases hle : v ≤ mv
    · rw [h v hle]
    · rw [hv v (by omega)]; simp
  exact ⟨fun g v => (this v).1 (g v), fun g v => (this v).2 (g v)⟩

/-- One step of the enumeration. -/
theorem next_spec {s : S} {F : ClauseSet} (mv : Nat) (hmv : mv < maxVarIdx) (h : LawfulIncremental.holds s F) :
    (∃ sol s' B, Enumerator.next ⟨s, mv⟩ = .item sol ⟨s', mv⟩ ∧ LawfulIncremental.holds s' (F ++ [B]) ∧
      (∀ v, mv < v → sol.varValue v = .dontCare) ∧ (∀ m, Clause.sat m B ↔ ¬ sol.completedBy m) ∧
      (∃ b, sol.completedBy b) ∧ ∀ b, sol.completedBy b → ∃ m, (∀ v, v ≤ mv → m v = b v) ∧ ClauseSet.sat m F) ∨
    (∃ e, Enumerator.next ⟨s, mv⟩ = .finished e) ∧ Unsatisfiable F := by
  rcases LawfulIncremental.solve h with ⟨s', h1, h2, ⟨⟨b0, hb0⟩, h4⟩, h5⟩ | ⟨s', h1, h2⟩
  · obtain ⟨sol, g1, g2, g3, g4⟩ := solverSolution_spec mv h5
    obtain ⟨ls, k1, k2, k3, _⟩ := C04_iter sol (by unfold Assignment.len; omega)
    obtain ⟨s'', a1, a2⟩ := LawfulIncremental.add (ls.map Lit.neg) h2
    have hcomp : sol.completedBy b0 := by
      intro v
      by_cases hv : v ≤ mv
      · have hl := hb0 (Lit.pos v)
        rw [g3 v hv] at hl
        simpa using hl
      · rw [g4 v (by omega)]; simp
    refine .inl ⟨sol, s'', _, by simp only [Enumerator.next, h1, g1, k2, a1], a2, g4, sat_block k3, ⟨b0, hcomp⟩, fun b hb => ?_⟩
    refine ⟨fun v => if v ≤ mv then b v else b0 v, fun v hv => by simp [hv], h4 _ fun l => ?_⟩
    by_cases hv : l.var ≤ mv
    · rw [Lit.holds_congr (b := b) (by simp [hv])]
      have hc := hb l.var
      rw [← Option.some_inj, ← Option.some_inj (b := TernaryVal.false), ← g3 l.var hv] at hc
      obtain ⟨t, ht, ht'⟩ := h5 l.var
      rw [ht] at hc
      rcases l.pos_or_negOf with e | e <;> rw [e] <;> simp only [Lit.holds_pos, Lit.holds_negOf, ht, ht']
      · simpa using hc
      · cases t <;> simp [TernaryVal.not] at hc ⊢ <;> exact hc
    · rw [Lit.holds_congr (b := b0) (by simp [hv])]
      exact hb0 l
  · exact .inr ⟨⟨⟨s', mv⟩, by simp only [Enumerator.next, h1]⟩, h2⟩

theorem nPoints_lt {mv : Nat} {F : ClauseSet} {B : Clause} {sol : Assignment}
    (hv : ∀ v, mv < v → sol.varValue v = .dontCare) (hB : ∀ m, Clause.sat m B ↔ ¬ sol.completedBy m)
    (hc : ∃ b, sol.completedBy b)
    (hs : ∀ b, sol.completedBy b → ∃ m, (∀ v, v ≤ mv → m v = b v) ∧ ClauseSet.sat m F) :
    nPoints mv (F ++ [B]) < nPoints mv F := by
  obtain ⟨b, hb⟩ := hc
  obtain ⟨m, hm, hF⟩ := hs b hb
  have hmb : sol.completedBy m := (completedBy_congr hv hm).2 hb
  refine countP_lt (fun p _ hp => ?_) (mem_allPoints (p := point mv m) (by simp [point])) ?_ ?_
  · simp only [decide_eq_true_eq] at hp ⊢
    obtain ⟨m', h1, h2⟩ := hp
    exact ⟨m', ((ClauseSet.sat_append _ _ _).1 h1).1, h2⟩
  · simp only [decide_eq_false_iff_not]
    rintro ⟨m', h1, h2⟩
    have := ((ClauseSet.sat_append _ _ _).1 h1).2 B (by simp)
    exact (hB m').1 this ((completedBy_congr hv (point_eq h2)).2 hmb)
  · simp only [decide_eq_true_eq]
    exact ⟨m, hF, rfl⟩

/-- What the loop prints if it stops early. -/
def stopAfter (stop : Option Nat) (cnt : Nat) (sols : List Assignment) : List Assignment :=
  match stop with
  | none => sols
  | some k => sols.take (max 1 (k - cnt))

theorem enumLoop_spec (mv : Nat) (hmv : mv < maxVarIdx) (n : Nat) :
    ∀ (s : S) (F : ClauseSet), nPoints mv F ≤ n → LawfulIncremental.holds s F →
      ∃ sols : List Assignment, sols.length ≤ nPoints mv F ∧ ListsSolutions mv (fun m => ClauseSet.sat m F) sols ∧
        ∀ stop fuel cnt, sols.length < fuel → enumLoop stop fuel cnt ⟨s, mv⟩ = .done (stopAfter stop cnt sols) := by
  induction n with
  | zero =>
    intro s F hn h
    rcases next_spec mv hmv h with ⟨sol, s', B, _, _, h3, h4, h5, h6⟩ | ⟨⟨e, h1⟩, h2⟩
    · have := nPoints_lt h3 h4 h5 h6; omega
    · refine ⟨[], by simp, ⟨by simp, by simp, fun m hm => absurd ⟨m, hm⟩ h2, .nil⟩, fun stop fuel cnt hf => ?_⟩
      obtain ⟨fuel, rfl⟩ : ∃ k, fuel = k + 1 := ⟨fuel - 1, by simp at hf; omega⟩
      cases stop <;> simp [enumLoop, h1, stopAfter]
  | succ n ih =>
    intro s F hn h
    rcases next_spec mv hmv h with ⟨sol, s', B, h1, h2, h3, h4, h5, h6⟩ | ⟨⟨e, h1⟩, h2⟩
    · have hlt := nPoints_lt h3 h4 h5 h6
      obtain ⟨sols, g1, g2, g3⟩ := ih s' (F ++ [B]) (by omega) h2
      have hB : ∀ m, ClauseSet.sat m (F ++ [B]) ↔ ClauseSet.sat m F ∧ ¬ sol.completedBy m := by
        intro m
        rw [ClauseSet.sat_append, ← h4]
        simp [ClauseSet.sat]
      refine ⟨sol :: sols, by simp; omega, ⟨?_, ?_, ?_, ?_⟩, fun stop fuel cnt hf => ?_⟩
      · intro t ht
        rcases List.mem_cons.1 ht with rfl | ht
        · exact h3
        · exact g2.vars t ht
      · intro t ht b hb
        rcases List.mem_cons.1 ht with rfl | ht
        · exact h6 b hb
        · obtain ⟨m, k1, k2⟩ := g2.sound t ht b hb
          exact ⟨m, k1, ((hB m).1 k2).1⟩
      · intro m hm
        by_cases hc : sol.completedBy m
        · exact ⟨sol, List.mem_cons_self, hc⟩
        · obtain ⟨t, ht, k⟩ := g2.complete m ((hB m).2 ⟨hm, hc⟩)
          exact ⟨t, List.mem_cons_of_mem _ ht, k⟩
      · refine List.pairwise_cons.2 ⟨fun t ht => ?_, g2.disjoint⟩
        rintro ⟨b, k1, k2⟩
        obtain ⟨m, q1, q2⟩ := g2.sound t ht b k2
        exact ((hB m).1 q2).2 ((completedBy_congr h3 q1).2 k1)
      · obtain ⟨fuel, rfl⟩ : ∃ k, fuel = k + 1 := ⟨fuel - 1, by simp at hf; omega⟩
        simp only [List.length_cons] at hf
        simp only [enumLoop, h1]
        cases stop with
        | none => simp [g3 _ fuel (cnt + 1) (by omega), stopAfter]
        | some k =>
          by_cases hk : k ≤ cnt + 1
          · simp only [Option.any_some, ge_iff_le, hk, decide_true, if_true, stopAfter]
            rw [show max 1 (k - cnt) = 1 by omega]; rfl
          · simp only [Option.any_some, ge_iff_le, hk, decide_false, Bool.false_eq_true, if_false,
              g3 _ fuel (cnt + 1) (by omega), stopAfter]
            rw [show max 1 (k - cnt) = max 1 (k - (cnt + 1)) + 1 by omega]; rfl
    · refine ⟨[], by simp, ⟨by simp, by simp, fun m hm => absurd ⟨m, hm⟩ h2, .nil⟩, fun stop fuel cnt hf => ?_⟩
      obtain ⟨fuel, rfl⟩ : ∃ k, fuel = k + 1 := ⟨fuel - 1, by simp at hf; omega⟩
      cases stop <;> simp [enumLoop, h1, stopAfter]

theorem stopAfter_none (sols : List Assignment) : stopAfter none 0 sols = sols := rfl

/-- C58: with a correct incremental solver, the enumeration of the solutions of some clauses ends, after at most as many
steps as there are assignments of the variables, and it lists the solutions of the clauses. -/
theorem C58_clauses (mv : Nat) (hmv : mv < maxVarIdx) (F : ClauseSet) (s : S) (h : LawfulIncremental.holds s F) :
    ∃ sols : List Assignment, sols.length ≤ 2 ^ (mv + 1) ∧ ListsSolutions mv (fun m => ClauseSet.sat m F) sols ∧
      (∀ fuel, sols.length < fuel → enumLoop none fuel 0 ⟨s, mv⟩ = .done sols) ∧
      ∀ k fuel, 0 < k → sols.length < fuel → enumLoop (some k) fuel 0 ⟨s, mv⟩ = .done (sols.take k) := by
  obtain ⟨sols, h1, h2, h3⟩ := enumLoop_spec mv hmv _ s F (Nat.le_refl _) h
  refine ⟨sols, Nat.le_trans h1 (nPoints_le mv F), h2, fun fuel hf => h3 none fuel 0 hf, fun k fuel hk hf => ?_⟩
  rw [h3 (some k) fuel 0 hf, stopAfter, show max 1 (k - 0) = k by omega]

theorem addCnf_incremental {s : S} {F : ClauseSet} (G : ClauseSet) (h : LawfulIncremental.holds s F) :
    ∃ s', addCnf s G = (some (), s') ∧ LawfulIncremental.holds s' (F ++ G) := by
  induction G generalizing s F with
  | nil => exact ⟨s, rfl, by simpa using h⟩
  | cons c G ih =>
    obtain ⟨s1, e1, h1⟩ := LawfulIncremental.add c h
    obtain ⟨s2, e2, h2⟩ := ih h1
    exact ⟨s2, by simp only [addCnf, e1, e2], by simpa using h2⟩

theorem findMax_from {mv : Option Nat} {v m : Nat} (h : Objective.findMax mv v = some m) : m = v ∨ mv = some m := by
  unfold Objective.findMax at h
  cases mv with
  | none => exact .inl (Option.some.inj h).symm
  | some k =>
    by_cases hk : k < v
    · simp only [if_pos hk] at h; exact .inl (Option.some.inj h).symm
    · simp only [if_neg hk] at h; exact .inr h

theorem foldMax_from {β : Type} (f : β → Nat) (xs : List β) (mv : Option Nat) (m : Nat)
    (h : xs.foldl (fun mv x => Objective.findMax mv (f x)) mv = some m) : mv = some m ∨ ∃ x ∈ xs, f x = m := by
  induction xs generalizing mv with
  | nil => exact .inl h
  | cons x xs ih =>
    rcases ih _ h with h | ⟨y, hy, h⟩
    · rcases findMax_from h with h | h
      · exact .inr ⟨x, List.mem_cons_self, h.symm⟩
      · exact .inl h
    · exact .inr ⟨y, List.mem_cons_of_mem _ hy, h⟩

theorem foldMaxC_from {β : Type} (f : β → Clause) (xs : List β) (mv : Option Nat) (m : Nat)
    (h : xs.foldl (fun mv x => (f x).foldl (fun mv l => Objective.findMax mv l.var) mv) mv = some m) :
    mv = some m ∨ ∃ x ∈ xs, ∃ l ∈ f x, l.var = m := by
  induction xs generalizing mv with
  | nil => exact .inl h
  | cons x xs ih =>
    rcases ih _ h with h | ⟨y, hy, h⟩
    · rcases foldMax_from (fun l : Lit => l.var) _ _ _ h with h | h
      · exact .inl h
      · exact .inr ⟨x, List.mem_cons_self, h⟩
    · exact .inr ⟨y, List.mem_cons_of_mem _ hy, h⟩

/-- `max_var` is a variable of the objective. -/
theorem maxVar_hasVar {o : Objective} {m : Nat} (h : o.maxVar = some m) : o.hasVar m := by
  cases o with
  | weighted off sl sc =>
    rcases foldMaxC_from (fun p : Clause × Nat => p.1) sc _ m h with h | h
    · rcases foldMax_from (fun p : Lit × Nat => p.1.var) sl _ m h with h | h
      · cases h
      · exact .inl h
    · exact .inr h
  | unweighted off u sl sc =>
    rcases foldMaxC_from (fun p : Clause => p) sc _ m h with h | h
    · rcases foldMax_from (fun p : Lit => p.var) sl _ m h with h | h
      · cases h
      · exact .inl h
    · exact .inr h

theorem objMaxVar_spec (objs : List Objective) :
    (∀ o ∈ objs, ∀ mv, o.maxVar = some mv → mv ≤ MultiOptInstance.objMaxVar objs) ∧
    (MultiOptInstance.objMaxVar objs = 0 ∨ ∃ o ∈ objs, o.maxVar = some (MultiOptInstance.objMaxVar objs)) := by
  have key : ∀ (objs : List Objective) (k : Nat),
      let r := objs.foldl (fun v o => match o.maxVar with | some mv => max v mv | none => v) k
      k ≤ r ∧ (∀ o ∈ objs, ∀ mv, o.maxVar = some mv → mv ≤ r) ∧ (r = k ∨ ∃ o ∈ objs, o.maxVar = some r) := by
    intro objs
    induction objs with
    | nil => intro k; simp
    | cons o os ih =>
      intro k
      simp only [List.foldl_cons]
      cases ho : o.maxVar with
      | none =>
        obtain ⟨h1, h2, h3⟩ := ih k
        refine ⟨h1, ?_, ?_⟩
        · intro o' ho' mv hmv
          rcases List.mem_cons.1 ho' with rfl | ho'
          · rw [ho] at hmv; cases hmv
          · exact h2 o' ho' mv hmv
        · rcases h3 with h3 | ⟨o', ho', h3⟩
          · exact .inl h3
          · exact .inr ⟨o', List.mem_cons_of_mem _ ho', h3⟩
      | some m =>
        obtain ⟨h1, h2, h3⟩ := ih (max k m)
        show k ≤ os.foldl _ (max k m) ∧ (∀ o' ∈ o :: os, ∀ mv, o'.maxVar = some mv → mv ≤ os.foldl _ (max k m)) ∧
          (os.foldl _ (max k m) = k ∨ ∃ o' ∈ o :: os, o'.maxVar = some (os.foldl _ (max k m)))
        refine ⟨by omega, ?_, ?_⟩
        · intro o' ho' mv hmv
          rcases List.mem_cons.1 ho' with rfl | ho'
          · rw [ho] at hmv; cases hmv; omega
          · exact h2 o' ho' mv hmv
        · rcases h3 with h3 | ⟨o', ho', h3⟩
          · by_cases hkm : m ≤ k
            · exact .inl (by rw [h3]; omega)
            · exact .inr ⟨o, List.mem_cons_self, by rw [h3, ho]; congr 1; omega⟩
          · exact .inr ⟨o', List.mem_cons_of_mem _ ho', h3⟩
  obtain ⟨_, h2, h3⟩ := key objs 0
  exact ⟨h2, h3⟩

/-- C58: the enumerator lists the solutions of an instance, and it prints with each of them the values of the
objectives. -/
theorem C58_instance (i : MultiOptInstance BasicVM) (hk : i.constrs.Known) (hr : ∀ c ∈ i.constrs.pbs, c.Regular)
    (hn : i.constrs.vm.nextVar ≤ maxVarIdx) (ho : ∀ o ∈ i.objs, ∀ v, o.hasVar v → v < maxVarIdx) :
    ∃ mv, (∀ v, v < i.constrs.vm.nextVar ∨ (∃ o ∈ i.objs, o.hasVar v) → v ≤ mv) ∧
    ∃ sols : List Assignment, ListsSolutions mv i.constrs.sat sols ∧ ∀ stop : Option Nat, stop ≠ some 0 →
      ∃ out : List (Assignment × List Int),
        out.map Prod.fst = (match stop with | none => sols | some k => sols.take k) ∧
        (∀ fuel, 2 ^ (mv + 1) < fuel → enumerator S stop fuel i = .done out) ∧
        ∀ p ∈ out, p.2.length = i.objs.length ∧ ∀ (j : Nat) o, i.objs[j]? = some o → ∀ b, p.1.completedBy b →
          ∃ val, p.2[j]? = some val ∧ val ≤ o.value b ∧ (o.assignedBy p.1 → val = o.value b) := by
  obtain ⟨m1, m2⟩ := objMaxVar_spec i.objs
  generalize hO : MultiOptInstance.objMaxVar i.objs = O at m1 m2
  have hOlt : O < maxVarIdx := by
    rcases m2 with m2 | ⟨o, h1, h2⟩
    · subst m2; decide
    · exact ho o h1 O (maxVar_hasVar h2)
  have hdec : i.decompose = ({ i.constrs with vm := ⟨max i.constrs.vm.nextVar (O + 1)⟩ }, i.objs) := by
    unfold MultiOptInstance.decompose
    rw [hO]
    have : (ManageVars.increaseNextFree i.constrs.vm (O + 1)).2 = ⟨max i.constrs.vm.nextVar (O + 1)⟩ := by
      show (if O + 1 > i.constrs.vm.nextVar then (true, (⟨O + 1⟩ : BasicVM)) else (false, i.constrs.vm)).2 = _
      by_cases h : O + 1 > i.constrs.vm.nextVar
      · rw [if_pos h, show max i.constrs.vm.nextVar (O + 1) = O + 1 by omega]
      · rw [if_neg h, show max i.constrs.vm.nextVar (O + 1) = i.constrs.vm.nextVar by omega]
    rw [this]
  refine ⟨max i.constrs.vm.nextVar (O + 1) - 1, ?_, ?_⟩
  · rintro v (hv | ⟨o, h1, h2⟩)
    · omega
    · obtain ⟨m, k1, k2⟩ := DimacsSpec.maxVar_spec h2
      have := m1 o h1 m k1
      omega
  · generalize hvm : max i.constrs.vm.nextVar (O + 1) = N at hdec
    have hN : 0 < N ∧ N ≤ maxVarIdx ∧ i.constrs.vm.nextVar ≤ N := by omega
    have hk' : ({ i.constrs with vm := ⟨N⟩ } : SatInstance BasicVM).Known := by
      intro v hv
      have : v < i.constrs.vm.nextVar := hk v hv
      exact Nat.lt_of_lt_of_le this hN.2.2
    obtain ⟨cnf, vm', c1, c2, _, c4, c5, c6⟩ := intoCnf_spec _ hk' hr
    obtain ⟨s, a1, a2⟩ := addCnf_incremental cnf (LawfulIncremental.init (S := S) 0)
    obtain ⟨sols, e1, e2, e3, e4⟩ := C58_clauses (N - 1) (by omega) cnf s (by simpa using a2)
    have hmv : ManageVars.maxVar (⟨N⟩ : BasicVM) = some (N - 1) := if_neg (by show ¬ N = 0; omega)
    refine ⟨sols, ⟨e2.vars, ?_, ?_, e2.disjoint⟩, fun stop hs => ?_⟩
    · intro t ht b hb
      obtain ⟨m, h1, h2⟩ := e2.sound t ht b hb
      exact ⟨m, h1, c4 m h2⟩
    · intro m hm
      obtain ⟨b, h1, h2⟩ := c5 m hm
      obtain ⟨t, h3, h4⟩ := e2.complete b h2
      refine ⟨t, h3, (completedBy_congr (e2.vars t h3) fun v hv => ?_).1 h4⟩
      exact h1 v (.inl (by show v < N; omega))
    · refine ⟨(match stop with | none => sols | some k => sols.take k).map fun sol : Assignment =>
          (sol, i.objs.map fun o => Objective.evaluate o sol),
        by simp [Function.comp_def], fun fuel hf => ?_, ?_⟩
      · unfold enumerator
        rw [hdec]
        simp only [hmv, c1, a1]
        cases stop with
        | none => rw [e3 fuel (by omega)]
        | some k => rw [e4 k fuel (by rcases k with _ | k; exact absurd rfl hs; omega) (by omega)]
      · intro p hp
        obtain ⟨sol, -, rfl⟩ := List.mem_map.1 hp
        refine ⟨by simp, fun j o hj b hb => ⟨o.evaluate sol, by simp [hj], ?_, ?_⟩⟩
        · exact C47_objective_lower_bound o sol b hb
        · exact C47_objective_evaluate o sol b hb

end

/-! ### A concrete solver -/

/-- A solver that tries all assignments. -/
structure BruteForce where
  cls : ClauseSet
  model : List Bool

namespace BruteForce

/-- The assignment from a list of values. -/
def asg (p : List Bool) : Asg := fun v => (p[v]?).getD false

/-- Decides if the assignment satisfies the clauses. -/
def check (F : ClauseSet) (p : List Bool) : Bool := F.all fun c => c.any fun l => l.holds (asg p)

/-- A bound on the variables. -/
def bound (F : ClauseSet) : Nat := (F.flatten.map fun l => l.var + 1).foldr max 0

instance : Solve BruteForce where
  init _ := ⟨[], []⟩
  addClause s c := (some (), { s with cls := s.cls ++ [c] })
  solve s :=
    match (allPoints (bound s.cls)).find? (check s.cls) with
    | some p => (some .sat, { s with model := p })
    | none => (some .unsat, s)
  litVal s l := some (.ofBool (l.holds (asg s.model)))

theorem check_iff {F : ClauseSet} {p : List Bool} : check F p = true ↔ ClauseSet.sat (asg p) F := by
  simp [check, ClauseSet.sat, Clause.sat]

theorem le_bound {F : ClauseSet} {c : Clause} {l : Lit} (hc : c ∈ F) (hl : l ∈ c) : l.var < bound F := by
  have key : ∀ (L : List Nat) (x : Nat), x ∈ L → x ≤ L.foldr max 0 := by
    intro L x hx
    induction L with
    | nil => cases hx
    | cons y L ih =>
      rcases List.mem_cons.1 hx with rfl | hx
      · simp [List.foldr_cons]
      · have := ih hx; simp [List.foldr_cons]; omega
  exact key _ (l.var + 1) (List.mem_map.2 ⟨l, List.mem_flatten.2 ⟨c, hc, hl⟩, rfl⟩)

instance : LawfulIncremental BruteForce where
  holds s F := s.cls = F
  init _ := rfl
  add c h := ⟨_, rfl, by rw [← h]⟩
  solve := by
    intro s F h
    subst h
    cases hf : (allPoints (bound s.cls)).find? (check s.cls) with
    | some p =>
      have hp := check_iff.1 (List.find?_some hf)
      refine .inl ⟨{ s with model := p }, by simp only [Solve.solve, hf], rfl, ⟨⟨asg p, fun l => ?_⟩, fun b hb => ?_⟩, fun v => ⟨_, rfl, ?_⟩⟩
      · simp only [Solve.litVal]
        cases l.holds (asg p) <;> simp [TernaryVal.ofBool]
      · have : ∀ l : Lit, l.holds b = l.holds (asg p) := by
          intro l
          have := hb l
          simp only [Solve.litVal] at this
          cases h : l.holds (asg p) <;> rw [h] at this <;> simpa [TernaryVal.ofBool] using this
        intro c hc
        obtain ⟨l, hl, hh⟩ := hp c hc
        exact ⟨l, hl, by rw [this]; exact hh⟩
      · simp only [Solve.litVal, Lit.holds_pos, Lit.holds_negOf]
        cases asg p v <;> rfl
    | none =>
      refine .inr ⟨s, by simp only [Solve.solve, hf], ?_⟩
      rintro ⟨m, hm⟩
      have := List.find?_eq_none.1 hf ((List.range (bound s.cls)).map m) (mem_allPoints (by simp))
      apply this
      rw [check_iff]
      intro c hc
      obtain ⟨l, hl, hh⟩ := hm c hc
      refine ⟨l, hl, ?_⟩
      rw [← hh]
      exact Lit.holds_congr (by simp [asg, le_bound hc hl])

end BruteForce

/-- The three solutions of a clause. -/
example : enumLoop none 4 0 (⟨⟨[[Lit.pos 0, Lit.pos 1]], []⟩, 1⟩ : Enumerator BruteForce) =
    .done [⟨[.true, .true]⟩, ⟨[.true, .false]⟩, ⟨[.false, .true]⟩] := by rfl

/-- C58: an instance with a clause and an objective: three solutions are printed, with their values. -/
example : enumerator BruteForce none 9 ⟨⟨[[Lit.pos 0, Lit.pos 1]], [], [], ⟨2⟩⟩, [.weighted 1 [(Lit.pos 0, 3)] []]⟩ =
    .done [(⟨[.true, .true]⟩, [4]), (⟨[.true, .false]⟩, [4]), (⟨[.false, .true]⟩, [1])] := by rfl

/-- C58 is violated: if no solution is asked for, one is printed. -/
theorem C58_violated_until_zero : ∃ i : MultiOptInstance BasicVM, i.constrs.Known ∧
    ∀ fuel, enumerator BruteForce (some 0) (fuel + 1) i = .done [(⟨[.true]⟩, [])] :=
  ⟨⟨⟨[[Lit.pos 0]], [], [], ⟨1⟩⟩, []⟩, (by
    rintro v (⟨c, hc, l, hl, rfl⟩ | ⟨c, hc, _⟩ | ⟨c, hc, _⟩)
    · simp at hc; subst hc; simp at hl; subst hl; decide
    · cases hc
    · cases hc), fun _ => rfl⟩

end RustSat
