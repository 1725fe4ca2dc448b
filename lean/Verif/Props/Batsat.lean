import Verif.Spec.Batsat
import Verif.Lemmas.BindingsToy
/-
C90: the wrapper of BatSat, over all histories.
-/
namespace RustSat

/-- The literal in the representation of BatSat. -/
def Lit.bat (l : Lit) : BatLit := ⟨l.var, !l.isNeg⟩

theorem Lit.holds_bat (l : Lit) (m : Asg) : l.bat.holds m = l.holds m := by
  unfold Lit.bat BatLit.holds Lit.holds
  cases l.isNeg <;> cases m l.var <;> rfl

theorem batSat_map (m : Asg) (F : ClauseSet) : batSat m (F.map fun c => c.map Lit.bat) ↔ ClauseSet.sat m F := by
  unfold batSat ClauseSet.sat Clause.sat
  constructor
  · intro h c hc
    obtain ⟨b, hb, hm⟩ := h _ (List.mem_map_of_mem hc)
    obtain ⟨l, hl, rfl⟩ := List.mem_map.1 hb
    exact ⟨l, hl, by rw [← Lit.holds_bat]; exact hm⟩
  · intro h c hc
    obtain ⟨d, hd, rfl⟩ := List.mem_map.1 hc
    obtain ⟨l, hl, hm⟩ := h d hd
    exact ⟨l.bat, List.mem_map_of_mem hl, by rw [Lit.holds_bat]; exact hm⟩

/-- The literal of BatSat as a literal of RustSAT. -/
def BatLit.lit (l : BatLit) : Lit := Lit.mk' l.var (!l.sign)

theorem BatLit.holds_lit (l : BatLit) (m : Asg) : l.lit.holds m = l.holds m := by
  unfold BatLit.lit BatLit.holds Lit.holds
  rw [Lit.var_mk', Lit.isNeg_mk']
  cases l.sign <;> cases m l.var <;> rfl

theorem BatLit.lit_neg {l : BatLit} {A : List Lit} (h : (⟨l.var, !l.sign⟩ : BatLit) ∈ A.map Lit.bat) : l.lit.neg ∈ A := by
  obtain ⟨a, ha, e⟩ := List.mem_map.1 h
  unfold Lit.bat at e
  injection e with e1 e2
  have : l.lit.neg = a := by
    rw [← Lit.mk'_var_isNeg l.lit.neg, ← Lit.mk'_var_isNeg a, Lit.var_neg, Lit.isNeg_neg]
    unfold BatLit.lit
    rw [Lit.var_mk', Lit.isNeg_mk', e1]
    congr 1
    cases hs : l.sign <;> cases ha : a.isNeg <;> simp [hs, ha] at e2 ⊢
  rw [this]
  exact ha

section
variable {H : Type} [BatLib H] [LawfulBat H]

theorem Batsat.convert_spec : ∀ (A : List Lit) (h : H),
    (Batsat.convert h A).1 = A.map Lit.bat ∧ LawfulBat.clauses (Batsat.convert h A).2 = LawfulBat.clauses h ∧
    BatLib.numVars h ≤ BatLib.numVars (Batsat.convert h A).2 ∧
    ∀ l ∈ A, l.var < BatLib.numVars (Batsat.convert h A).2
  | [], h => ⟨rfl, rfl, Nat.le_refl _, nofun⟩
  | a :: A, h => by
    obtain ⟨h1, h2, h3, h4⟩ := LawfulBat.varOfInt h a.var
    obtain ⟨g1, g2, g3, g4⟩ := Batsat.convert_spec A (BatLib.varOfInt h a.var).2
    unfold Batsat.convert
    refine ⟨?_, g2.trans h2, Nat.le_trans h4 g3, fun l hl => ?_⟩
    · show (⟨(BatLib.varOfInt h a.var).1, !a.isNeg⟩ : BatLit) :: (Batsat.convert (BatLib.varOfInt h a.var).2 A).1 = _
      rw [g1, h1]
      rfl
    · rcases List.mem_cons.1 hl with rfl | hl
      · exact Nat.lt_of_lt_of_le h3 g3
      · exact g4 l hl

/-- The values below some number of variables are those of a partial assignment all completions of which are models. -/
def BatModel (h : H) (F : ClauseSet) : Prop := ∃ p : Nat → Option Bool,
  (∀ l : BatLit, l.var < LawfulBat.modelVars h → BatLib.value h l = some ((p l.var).map (· == l.sign))) ∧
  (∀ c ∈ F, ∀ l ∈ c, l.var < LawfulBat.modelVars h) ∧ ∀ m, Extends p m → ClauseSet.sat m F

/-- The invariant of the wrapper. -/
structure BInv (n : Batsat H) (F : ClauseSet) (k : Nat) : Prop where
  clauses : LawfulBat.clauses n.internal = F.map fun c => c.map Lit.bat
  known : ∀ c ∈ F, ∀ l ∈ c, l.var < BatLib.numVars n.internal
  reserved : k ≤ BatLib.numVars n.internal
  sat : n.state = .sat → BatModel n.internal F
  unsat : n.state = .unsat false → Unsatisfiable F
  core : n.state = .unsat true → ∀ m, ClauseSet.sat m F → ∃ l ∈ BatLib.core n.internal, l.holds m = true

/-- What holds after a query. -/
structure BatOk (F : ClauseSet) (k : Nat) (A : List Lit) (n : Batsat H) (r : SolverResult) (n' : Batsat H) : Prop where
  clauses : LawfulBat.clauses n'.internal = F.map fun c => c.map Lit.bat
  known : ∀ c ∈ F ++ units A, ∀ l ∈ c, l.var < BatLib.numVars n'.internal
  reserved : k ≤ BatLib.numVars n'.internal
  sat : r = .sat → n'.state = .sat ∧ k ≤ LawfulBat.modelVars n'.internal ∧ BatModel n'.internal (F ++ units A)
  unsat : r = .unsat → n'.state = .unsat (!A.isEmpty) ∧ Unsatisfiable (F ++ units A) ∧
    (∀ l ∈ BatLib.core n'.internal, (⟨l.var, !l.sign⟩ : BatLit) ∈ A.map Lit.bat) ∧
    ∀ m, ClauseSet.sat m F → ∃ l ∈ BatLib.core n'.internal, l.holds m = true
  interrupted : r = .interrupted → n'.state = .input
  stats : (n'.nSat, n'.nUnsat, n'.nTerminated) = (n.nSat + (if r = .sat then 1 else 0),
    n.nUnsat + (if r = .unsat then 1 else 0), n.nTerminated + (if r = .interrupted then 1 else 0))

theorem units_vars {F : ClauseSet} {A : List Lit} {k : Nat} (h1 : ∀ c ∈ F, ∀ l ∈ c, l.var < k) (h2 : ∀ l ∈ A, l.var < k) :
    ∀ c ∈ F ++ units A, ∀ l ∈ c, l.var < k := by
  intro c hc l hl
  rcases List.mem_append.1 hc with hc | hc
  · exact h1 c hc l hl
  · obtain ⟨a, ha, rfl⟩ := List.mem_map.1 hc
    rw [List.mem_singleton.1 hl]
    exact h2 a ha

theorem BInv.query {n : Batsat H} {F : ClauseSet} {k : Nat} (h : BInv n F k) (A : List Lit) :
    BatOk F k A n (n.solveTrackStats A).1 (n.solveTrackStats A).2 := by
  obtain ⟨g1, g2, g3, g4⟩ := Batsat.convert_spec A n.internal
  unfold Batsat.solveTrackStats
  generalize Batsat.convert n.internal A = x at g1 g2 g3 g4
  obtain ⟨bs, h'⟩ := x
  dsimp only at g1 g2 g3 g4 ⊢
  subst g1
  have hb : ∀ l ∈ A.map Lit.bat, l.var < BatLib.numVars h' := by
    intro l hl
    obtain ⟨a, ha, rfl⟩ := List.mem_map.1 hl
    exact g4 a ha
  have hF := units_vars (fun c hc l hl => Nat.lt_of_lt_of_le (h.known c hc l hl) g3) g4
  obtain ⟨s1, s2⟩ := LawfulBat.solve h' _ hb
  have ssat := LawfulBat.solveSat h' _ hb
  have sunsat := LawfulBat.solveUnsat h' _ hb
  have hemp : (A.map Lit.bat).isEmpty = A.isEmpty := by cases A <;> rfl
  rw [g2, h.clauses] at s1 ssat sunsat
  rw [← s2] at hF
  have hk : k ≤ BatLib.numVars (BatLib.solve h' (A.map Lit.bat)).2 := by rw [s2]; exact Nat.le_trans h.reserved g3
  generalize hsol : BatLib.solve h' (A.map Lit.bat) = x at s1 s2 ssat sunsat hF hk
  obtain ⟨res, h''⟩ := x
  dsimp only at s1 s2 ssat sunsat hF hk
  rcases res with _ | _ | _
  · exact ⟨s1, hF, hk, nofun, nofun, fun _ => rfl, rfl⟩
  · refine ⟨s1, hF, hk, nofun, fun _ => ⟨by unfold Batsat.record; rw [hemp], ?_⟩, nofun, rfl⟩
    obtain ⟨u1, u2, u3⟩ := sunsat rfl
    refine ⟨fun ⟨m, hm⟩ => ?_, u2, fun m hm => u3 m ((batSat_map m F).2 hm)⟩
    obtain ⟨l, hl, hf⟩ := u1 m ((batSat_map m F).2 fun c hc => hm c (List.mem_append_left _ hc))
    obtain ⟨a, ha, rfl⟩ := List.mem_map.1 hl
    obtain ⟨x, hx, hxm⟩ := hm [a] (List.mem_append_right _ (List.mem_map_of_mem ha))
    rw [List.mem_singleton.1 hx, ← Lit.holds_bat, hf] at hxm
    cases hxm
  · obtain ⟨u1, p, u2, u3⟩ := ssat rfl
    refine ⟨s1, hF, hk, fun _ => ⟨rfl, ?_, p, ?_, ?_, fun m hm c hc => ?_⟩, nofun, nofun, rfl⟩
    · show k ≤ LawfulBat.modelVars h''
      rw [u1, ← s2]; exact hk
    · intro l hl
      exact u2 l (by rw [← u1]; exact hl)
    · intro c hc l hl
      show l.var < LawfulBat.modelVars h''
      rw [u1, ← s2]; exact hF c hc l hl
    · obtain ⟨w1, w2⟩ := u3 m hm
      rcases List.mem_append.1 hc with hc | hc
      · exact (batSat_map m F).1 w1 c hc
      · obtain ⟨a, ha, rfl⟩ := List.mem_map.1 hc
        exact ⟨a, List.mem_cons_self, by rw [← Lit.holds_bat]; exact w2 _ (List.mem_map_of_mem ha)⟩

theorem BatOk.inv {F : ClauseSet} {k : Nat} {A : List Lit} {n n' : Batsat H} {r : SolverResult} (h : BatOk F k A n r n') :
    BInv n' F k := by
  refine ⟨h.clauses, fun c hc => h.known c (List.mem_append_left _ hc), h.reserved, fun hs => ?_, fun hs => ?_, fun hs => ?_⟩
  · cases r with
    | sat =>
      obtain ⟨p, h1, h2, h3⟩ := (h.sat rfl).2.2
      exact ⟨p, h1, fun c hc => h2 c (List.mem_append_left _ hc), fun m hm c hc => h3 m hm c (List.mem_append_left _ hc)⟩
    | unsat => have := (h.unsat rfl).1; rw [hs] at this; cases this
    | interrupted => have := h.interrupted rfl; rw [hs] at this; cases this
  · cases r with
    | sat => have := (h.sat rfl).1; rw [hs] at this; cases this
    | unsat =>
      obtain ⟨h1, h2, _⟩ := h.unsat rfl
      rw [hs] at h1
      injection h1 with h1
      cases A with
      | nil => simpa [units] using h2
      | cons a A => cases h1
    | interrupted => have := h.interrupted rfl; rw [hs] at this; cases this
  · cases r with
    | sat => have := (h.sat rfl).1; rw [hs] at this; cases this
    | unsat => exact (h.unsat rfl).2.2.2
    | interrupted => have := h.interrupted rfl; rw [hs] at this; cases this

omit [LawfulBat H] in
theorem Batsat.solve_cases (n : Batsat H) : (n.state = .sat ∧ n.solve = (.sat, n)) ∨
    (n.state = .unsat false ∧ n.solve = (.unsat, n)) ∨
    (n.state ≠ .sat ∧ n.state ≠ .unsat false ∧ n.solve = n.solveTrackStats []) := by
  unfold Batsat.solve
  cases hs : n.state with
  | sat => simp
  | unsat b => cases b <;> simp
  | input => simp

/-- What creating variables keeps. -/
structure BatGrow (h h' : H) : Prop where
  clauses : LawfulBat.clauses h' = LawfulBat.clauses h
  vars : BatLib.numVars h ≤ BatLib.numVars h'
  modelVars : LawfulBat.modelVars h' = LawfulBat.modelVars h
  value : ∀ l : BatLit, l.var < LawfulBat.modelVars h → BatLib.value h' l = BatLib.value h l
  core : BatLib.core h' = BatLib.core h

theorem Batsat.reserveLoop_spec : ∀ (fuel : Nat) (h : H) (v : Nat), BatGrow h (Batsat.reserveLoop fuel h v) ∧
    (v < fuel + BatLib.numVars h → v < BatLib.numVars (Batsat.reserveLoop fuel h v))
  | 0, h, v => ⟨⟨rfl, Nat.le_refl _, rfl, fun _ _ => rfl, rfl⟩, fun hv => by rw [Nat.zero_add] at hv; exact hv⟩
  | fuel + 1, h, v => by
    unfold Batsat.reserveLoop
    by_cases hv : BatLib.numVars h ≤ v
    · rw [if_pos hv]
      obtain ⟨w1, w2, w3, w4, w5⟩ := LawfulBat.newVar h
      obtain ⟨g, g'⟩ := Batsat.reserveLoop_spec fuel (BatLib.newVar h) v
      refine ⟨⟨g.clauses.trans w1, by have := g.vars; omega, g.modelVars.trans w3, fun l hl => ?_, g.core.trans w5⟩,
        fun hlt => g' (by omega)⟩
      rw [g.value l (by rw [w3]; exact hl), w4 l hl]
    · rw [if_neg hv]
      exact ⟨⟨rfl, Nat.le_refl _, rfl, fun _ _ => rfl, rfl⟩, fun _ => by omega⟩

theorem BatReach.inv {n : Batsat H} {F : ClauseSet} {k : Nat} (h : BatReach n F k) : BInv n F k := by
  induction h with
  | new => exact ⟨LawfulBat.init, nofun, Nat.zero_le _, nofun, nofun, nofun⟩
  | @add n F k c _ ih =>
    obtain ⟨g1, g2, g3, g4⟩ := Batsat.convert_spec c n.internal
    unfold Batsat.addClause
    generalize Batsat.convert n.internal c = x at g1 g2 g3 g4
    obtain ⟨bs, h'⟩ := x
    dsimp only at g1 g2 g3 g4 ⊢
    subst g1
    obtain ⟨a1, a2⟩ := LawfulBat.addClause h' (c.map Lit.bat) (by
      intro l hl
      obtain ⟨a, ha, rfl⟩ := List.mem_map.1 hl
      exact g4 a ha)
    refine ⟨?_, ?_, ?_, nofun, nofun, nofun⟩
    · show LawfulBat.clauses (BatLib.addClause h' _) = _
      rw [a1, g2, ih.clauses, List.map_append]
      rfl
    · show ∀ d ∈ F ++ [c], ∀ l ∈ d, l.var < BatLib.numVars (BatLib.addClause h' _)
      rw [a2]
      intro d hd l hl
      rcases List.mem_append.1 hd with hd | hd
      · exact Nat.lt_of_lt_of_le (ih.known d hd l hl) g3
      · rw [List.mem_singleton.1 hd] at hl
        exact g4 l hl
    · show k ≤ BatLib.numVars (BatLib.addClause h' _)
      rw [a2]
      exact Nat.le_trans ih.reserved g3
  | @reserve n F k v _ ih =>
    obtain ⟨g, g'⟩ := Batsat.reserveLoop_spec (v + 1) n.internal v
    have hlt := g' (by omega)
    refine ⟨g.clauses.trans ih.clauses, fun c hc l hl => Nat.lt_of_lt_of_le (ih.known c hc l hl) g.vars,
      Nat.max_le.2 ⟨Nat.le_trans ih.reserved g.vars, hlt⟩, fun hs => ?_, ih.unsat, fun hs => ?_⟩
    · obtain ⟨p, h1, h2, h3⟩ := ih.sat hs
      refine ⟨p, fun l hl => ?_, fun c hc l hl => ?_, h3⟩
      · have hl' : l.var < LawfulBat.modelVars n.internal := by rw [← g.modelVars]; exact hl
        exact (g.value l hl').trans (h1 l hl')
      · show l.var < LawfulBat.modelVars (Batsat.reserveLoop (v + 1) n.internal v)
        rw [g.modelVars]
        exact h2 c hc l hl
    · show ∀ m, _ → ∃ l ∈ BatLib.core (Batsat.reserveLoop (v + 1) n.internal v), _
      rw [g.core]
      exact ih.core hs
  | @solve n F k _ ih =>
    rcases n.solve_cases with ⟨_, he⟩ | ⟨_, he⟩ | ⟨_, _, he⟩
    · rw [he]; exact ih
    · rw [he]; exact ih
    · rw [he]; exact (ih.query []).inv
  | assumps A _ ih => exact (ih.query A).inv

omit [LawfulBat H] in
theorem Batsat.litVal_eq {n : Batsat H} (hs : n.state = .sat) {x : Option Bool} {l : Lit}
    (h : BatLib.value n.internal l.bat = some x) : n.litVal l = .ok (ternary x) := by
  unfold Lit.bat at h
  unfold Batsat.litVal
  rw [if_neg (by simp [hs]), h]
  rcases x with _ | _ | _ <;> rfl

/-- The values of the literals over the first `k` variables are those of models of the clauses, and these variables include
all of the clauses. -/
def Batsat.Gives (n : Batsat H) (k : Nat) (F : ClauseSet) : Prop :=
  GivesModel (fun l => if l.var < k then (n.litVal l).toOption else none) F ∧
  (∀ l : Lit, l.var < k → ∃ t, n.litVal l = .ok t) ∧ ∀ c ∈ F, ∀ l ∈ c, l.var < k

theorem Batsat.gives {n : Batsat H} {F : ClauseSet} (hs : n.state = .sat) (h : BatModel n.internal F) :
    n.Gives (LawfulBat.modelVars n.internal) F := by
  obtain ⟨p, h1, h2, h3⟩ := h
  have hv : ∀ l : Lit, l.var < LawfulBat.modelVars n.internal → n.litVal l = .ok (ternary ((p l.var).map (· == !l.isNeg))) :=
    fun l hl => Batsat.litVal_eq hs (h1 l.bat hl)
  refine ⟨⟨⟨fun v => (p v).getD false, fun l => ?_⟩, fun b hb => (fun c hc => ?_ : ClauseSet.sat b F)⟩,
    fun l hl => ⟨_, hv l hl⟩, h2⟩
  · dsimp only
    by_cases hk : l.var < LawfulBat.modelVars n.internal
    · rw [if_pos hk, hv l hk]
      unfold Lit.holds
      rcases hp : p l.var with _ | _ | _ <;> cases l.isNeg <;> simp [Res.toOption, ternary, hp]
    · rw [if_neg hk]
      exact ⟨nofun, nofun⟩
  · let m : Asg := fun v => if v < LawfulBat.modelVars n.internal then b v else (p v).getD false
    have hm : Extends p m := by
      intro v x hx
      show (if v < LawfulBat.modelVars n.internal then b v else (p v).getD false) = x
      by_cases hk : v < LawfulBat.modelVars n.internal
      · rw [if_pos hk]
        have := hb (Lit.pos v)
        dsimp only at this
        rw [Lit.var_pos, if_pos hk, hv _ (by rw [Lit.var_pos]; exact hk), Lit.var_pos, hx, Lit.isNeg_pos, Lit.holds_pos] at this
        cases x with
        | true => exact this.1 rfl
        | false => exact this.2 rfl
      · rw [if_neg hk, hx]
        rfl
    obtain ⟨l, hl, hlm⟩ := h3 m hm c hc
    refine ⟨l, hl, ?_⟩
    rw [← hlm]
    exact Lit.holds_congr (if_pos (h2 c hc l hl)).symm

theorem BatOk.core {F : ClauseSet} {k : Nat} {A : List Lit} {n n' : Batsat H} {r : SolverResult} (h : BatOk F k A n r n')
    (hr : r = .unsat) : ∃ core, n'.core = .ok core ∧ (∀ l ∈ core, l.neg ∈ A) ∧ ∀ m, ClauseSet.sat m F → Clause.sat m core := by
  obtain ⟨h1, h2, h3, h4⟩ := h.unsat hr
  unfold Batsat.core
  rw [h1]
  cases A with
  | nil =>
    exact ⟨[], rfl, nofun, fun m hm => absurd ⟨m, fun c hc => hm c (by simpa [units] using hc)⟩ h2⟩
  | cons a A =>
    refine ⟨_, rfl, fun l hl => ?_, fun m hm => ?_⟩
    · obtain ⟨b, hb, rfl⟩ := List.mem_map.1 hl
      exact BatLit.lit_neg (h3 b hb)
    · obtain ⟨b, hb, hbm⟩ := h4 m hm
      exact ⟨b.lit, List.mem_map_of_mem hb, by rw [BatLit.holds_lit]; exact hbm⟩

/-- C90: what `solve` returns is right for the clauses added so far; after `Sat`, the values of all variables of clauses can
be read, and are those of models. -/
theorem C90_solve {n : Batsat H} {F : ClauseSet} {k : Nat} (h : BatReach n F k) :
    (n.solve.1 = .sat → ∃ j, n.solve.2.Gives j F) ∧
    (n.solve.1 = .unsat → Unsatisfiable F ∧ n.solve.2.core = .ok []) := by
  have hi := h.inv
  rcases n.solve_cases with ⟨hs, he⟩ | ⟨hs, he⟩ | ⟨_, _, he⟩
  · rw [he]
    exact ⟨fun _ => ⟨_, Batsat.gives hs (hi.sat hs)⟩, nofun⟩
  · rw [he]
    exact ⟨nofun, fun _ => ⟨hi.unsat hs, by unfold Batsat.core; rw [hs]⟩⟩
  · rw [he]
    have q := hi.query []
    have hF : F ++ units [] = F := by simp [units]
    refine ⟨fun hr => ?_, fun hr => ?_⟩
    · obtain ⟨hs, _, hm⟩ := q.sat hr
      rw [hF] at hm
      exact ⟨_, Batsat.gives hs hm⟩
    · obtain ⟨hs, hm, _⟩ := q.unsat hr
      rw [hF] at hm
      exact ⟨hm, by unfold Batsat.core; rw [hs]; rfl⟩

/-- C90: what `solve_assumps` returns is right for the clauses added so far and the assumptions of this call; after `Sat`, the
values of all variables of clauses and assumptions and of all reserved variables can be read, and are those of models; the
core consists of negated assumptions and is a consequence of the clauses. -/
theorem C90_assumps {n : Batsat H} {F : ClauseSet} {k : Nat} (h : BatReach n F k) (A : List Lit) :
    ((n.solveAssumps A).1 = .sat → ∃ j, k ≤ j ∧ (n.solveAssumps A).2.Gives j (F ++ units A)) ∧
    ((n.solveAssumps A).1 = .unsat → Unsatisfiable (F ++ units A) ∧ ∃ core, (n.solveAssumps A).2.core = .ok core ∧
      (∀ l ∈ core, l.neg ∈ A) ∧ ∀ m, ClauseSet.sat m F → Clause.sat m core) := by
  have q := h.inv.query A
  refine ⟨fun hr => ?_, fun hr => ?_⟩
  · obtain ⟨hs, hk, hm⟩ := q.sat hr
    exact ⟨_, hk, Batsat.gives hs hm⟩
  · exact ⟨(q.unsat hr).2.1, q.core hr⟩

/-- C90: at any time, values can be read after `Sat` only and a core after `Unsat` only, and they are right for the clauses
added so far; `max_var` is not lower than a variable of the clauses or a reserved one. -/
theorem C90_states {n : Batsat H} {F : ClauseSet} {k : Nat} (h : BatReach n F k) :
    (n.state = .sat → ∃ j, n.Gives j F) ∧
    (n.state ≠ .sat → ∀ l, n.litVal l = .err (.state .sat n.state.toExternal)) ∧
    (∀ core, n.core = .ok core → ∀ m, ClauseSet.sat m F → Clause.sat m core) ∧
    ((∀ b, n.state ≠ .unsat b) → n.core = .err (.state .unsat n.state.toExternal)) ∧
    (∀ v, (v < k ∨ ∃ c ∈ F, ∃ l ∈ c, l.var = v) → ∃ m, n.maxVar = some m ∧ v ≤ m) := by
  have hi := h.inv
  refine ⟨fun hs => ⟨_, Batsat.gives hs (hi.sat hs)⟩, fun hs l => ?_, fun core hc m hm => ?_, fun hs => ?_, fun v hv => ?_⟩
  · unfold Batsat.litVal
    rw [if_pos hs]
  · unfold Batsat.core at hc
    cases hs : n.state with
    | unsat b =>
      rw [hs] at hc
      cases b with
      | true =>
        injection hc with hc
        subst hc
        obtain ⟨b, hb, hbm⟩ := hi.core hs m hm
        exact ⟨b.lit, List.mem_map_of_mem hb, by rw [BatLit.holds_lit]; exact hbm⟩
      | false => exact absurd ⟨m, hm⟩ (hi.unsat hs)
    | input => rw [hs] at hc; cases hc
    | sat => rw [hs] at hc; cases hc
  · unfold Batsat.core
    cases hs' : n.state with
    | unsat b => exact absurd hs' (hs b)
    | _ => rfl
  · have hlt : v < BatLib.numVars n.internal := by
      rcases hv with hv | ⟨c, hc, l, hl, rfl⟩
      · exact Nat.lt_of_lt_of_le hv hi.reserved
      · exact hi.known c hc l hl
    unfold Batsat.maxVar
    rw [if_pos (Nat.lt_of_le_of_lt (Nat.zero_le v) hlt)]
    exact ⟨_, rfl, by omega⟩

/-- C90: the errors name the state that is needed and the state of the solver. -/
theorem C90_errors (n : Batsat H) (l : Lit) :
    (n.state = .input → n.litVal l = .err (.state .sat .input) ∧ n.core = .err (.state .unsat .input)) ∧
    (n.state = .sat → n.core = .err (.state .unsat .sat)) ∧
    (∀ b, n.state = .unsat b → n.litVal l = .err (.state .sat .unsat)) := by
  refine ⟨fun h => ?_, fun h => ?_, fun b h => ?_⟩
  · unfold Batsat.litVal Batsat.core; rw [h]; exact ⟨rfl, rfl⟩
  · unfold Batsat.core; rw [h]; rfl
  · unfold Batsat.litVal; rw [h]; rfl

/-- C90: queries are counted by result; a query that `solve` answers without the solver is not counted, and does not change
the wrapper. -/
theorem C90_stats {n : Batsat H} {F : ClauseSet} {k : Nat} (h : BatReach n F k) :
    (∀ A, ((n.solveAssumps A).2.nSat, (n.solveAssumps A).2.nUnsat, (n.solveAssumps A).2.nTerminated) =
      (n.nSat + (if (n.solveAssumps A).1 = .sat then 1 else 0), n.nUnsat + (if (n.solveAssumps A).1 = .unsat then 1 else 0),
        n.nTerminated + (if (n.solveAssumps A).1 = .interrupted then 1 else 0))) ∧
    (n.solve = n.solveAssumps [] ∨ (n.solve.2 = n ∧ ((n.state = .sat ∧ n.solve.1 = .sat) ∨ (n.state = .unsat false ∧ n.solve.1 = .unsat)))) ∧
    (∀ c, (n.addClause c).nSat = n.nSat ∧ (n.addClause c).nUnsat = n.nUnsat ∧ (n.addClause c).nTerminated = n.nTerminated) ∧
    ∀ v, (n.reserve v).nSat = n.nSat ∧ (n.reserve v).nUnsat = n.nUnsat ∧ (n.reserve v).nTerminated = n.nTerminated := by
  refine ⟨fun A => ?_, ?_, fun c => ⟨rfl, rfl, rfl⟩, fun v => ⟨rfl, rfl, rfl⟩⟩
  · exact (h.inv.query A).stats
  · rcases n.solve_cases with ⟨hs, he⟩ | ⟨hs, he⟩ | ⟨_, _, he⟩
    · exact .inr (by rw [he]; exact ⟨rfl, .inl ⟨hs, rfl⟩⟩)
    · exact .inr (by rw [he]; exact ⟨rfl, .inr ⟨hs, rfl⟩⟩)
    · exact .inl he

/-- C90: `extend` adds all clauses. -/
theorem C90_extend {n : Batsat H} {F : ClauseSet} {k : Nat} (h : BatReach n F k) (G : ClauseSet) :
    BatReach (n.extend G) (F ++ G) k := by
  unfold Batsat.extend
  induction G generalizing n F with
  | nil => rw [List.append_nil]; exact h
  | cons c G ih =>
    have := ih (h.add c)
    rw [List.append_assoc] at this
    exact this

end

/-- A small solver with the functions of BatSat: it tries one assignment, finds contradictory unit clauses, and gives up
otherwise. Values of variables without entry in the model cannot be read, and clauses with unknown variables are lost. -/
structure ToyBat where
  clauses : List (List BatLit) := []
  vars : Nat := 0
  model : Nat → Option Bool := fun _ => none
  modelVars : Nat := 0
  core : List BatLit := []

namespace ToyBat

/-- The formula of a query. -/
def formula (h : ToyBat) (A : List BatLit) : ClauseSet := (h.clauses ++ A.map fun l => [l]).map fun c => c.map BatLit.lit

/-- A query. -/
def run (h : ToyBat) (A : List BatLit) : Option Bool × ToyBat :=
  if ToyLib.good (h.formula A) then (some true, { h with model := ToyLib.values (h.formula A), modelVars := h.vars })
  else if ToyLib.bad (h.formula A) then (some false, { h with core := A.map fun l => ⟨l.var, !l.sign⟩ })
  else (none, h)

instance : BatLib ToyBat where
  init := {}
  numVars h := h.vars
  numClauses h := h.clauses.length
  newVar h := { h with vars := h.vars + 1 }
  varOfInt h v := (v, { h with vars := max h.vars (v + 1) })
  addClause h c := if c.all fun l => l.var < h.vars then { h with clauses := h.clauses ++ [c] } else h
  solve := run
  value h l := if l.var < h.modelVars then some ((h.model l.var).map (· == l.sign)) else none
  core h := h.core

theorem sat_formula {h : ToyBat} {A : List BatLit} {m : Asg} :
    ClauseSet.sat m (h.formula A) ↔ batSat m h.clauses ∧ ∀ l ∈ A, l.holds m = true := by
  unfold formula ClauseSet.sat Clause.sat batSat
  constructor
  · refine fun hs => ⟨fun c hc => ?_, fun l hl => ?_⟩
    · obtain ⟨k, hk, hkm⟩ := hs _ (List.mem_map_of_mem (List.mem_append_left _ hc))
      obtain ⟨l, hl, rfl⟩ := List.mem_map.1 hk
      exact ⟨l, hl, by rw [← BatLit.holds_lit]; exact hkm⟩
    · obtain ⟨k, hk, hkm⟩ := hs [l.lit] (List.mem_map_of_mem (f := fun c => c.map BatLit.lit)
        (List.mem_append_right h.clauses (List.mem_map_of_mem (f := fun l => [l]) hl)))
      rw [List.mem_singleton.1 hk, BatLit.holds_lit] at hkm
      exact hkm
  · rintro ⟨h1, h2⟩ c hc
    obtain ⟨d, hd, rfl⟩ := List.mem_map.1 hc
    rcases List.mem_append.1 hd with hd | hd
    · obtain ⟨l, hl, hlm⟩ := h1 d hd
      exact ⟨l.lit, List.mem_map_of_mem hl, by rw [BatLit.holds_lit]; exact hlm⟩
    · obtain ⟨l, hl, rfl⟩ := List.mem_map.1 hd
      exact ⟨l.lit, List.mem_cons_self, by rw [BatLit.holds_lit]; exact h2 l hl⟩

instance : LawfulBat ToyBat where
  clauses := clauses
  modelVars := modelVars
  init := rfl
  newVar h := ⟨rfl, rfl, rfl, fun _ _ => rfl, rfl⟩
  varOfInt h v := ⟨rfl, rfl, Nat.lt_of_lt_of_le (Nat.lt_succ_self v) (Nat.le_max_right _ _), Nat.le_max_left _ _⟩
  addClause h c hc := by
    have : (c.all fun l => decide (l.var < h.vars)) = true := List.all_eq_true.2 fun l hl => decide_eq_true (hc l hl)
    unfold BatLib.addClause instBatLib
    dsimp only
    rw [if_pos this]
    exact ⟨rfl, rfl⟩
  solve h A _ := by
    show (h.run A).2.clauses = _ ∧ (h.run A).2.vars = h.vars
    unfold run
    split
    · exact ⟨rfl, rfl⟩
    · split <;> exact ⟨rfl, rfl⟩
  solveSat h A _ e := by
    change (h.run A).1 = _ at e
    show (h.run A).2.modelVars = h.vars ∧ _
    unfold run at e ⊢
    by_cases hg : ToyLib.good (h.formula A) = true
    · rw [if_pos hg]
      refine ⟨rfl, ToyLib.values (h.formula A), fun l hl => ?_, fun m hm => ?_⟩
      · show BatLib.value (h.run A).2 l = _
        unfold run
        rw [if_pos hg]
        exact if_pos hl
      · exact sat_formula.1 (ToyLib.good_sat hg m hm)
    · rw [if_neg hg] at e
      split at e <;> cases e
  solveUnsat h A _ e := by
    change (h.run A).1 = _ at e
    show _ ∧ (∀ l ∈ (h.run A).2.core, _) ∧ ∀ m, _ → ∃ l ∈ (h.run A).2.core, _
    unfold run at e ⊢
    by_cases hg : ToyLib.good (h.formula A) = true
    · rw [if_pos hg] at e; cases e
    rw [if_neg hg] at e ⊢
    by_cases hb : ToyLib.bad (h.formula A) = true
    · rw [if_pos hb]
      have key : ∀ m, batSat m h.clauses → ∃ l ∈ A, l.holds m = false := by
        intro m hm
        apply Classical.byContradiction
        intro hn
        exact ToyLib.bad_unsat hb ⟨m, sat_formula.2 ⟨hm, fun l hl => by
          cases hl' : l.holds m with
          | true => rfl
          | false => exact absurd ⟨l, hl, hl'⟩ hn⟩⟩
      refine ⟨key, fun l hl => ?_, fun m hm => ?_⟩
      · obtain ⟨a, ha, rfl⟩ := List.mem_map.1 hl
        simpa using ha
      · obtain ⟨l, hl, hlm⟩ := key m hm
        refine ⟨⟨l.var, !l.sign⟩, List.mem_map_of_mem hl, ?_⟩
        unfold BatLit.holds at hlm ⊢
        cases hv : m l.var <;> cases hs : l.sign <;> simp_all
    · rw [if_neg hb] at e; cases e

end ToyBat

/-- The wrapper with the clauses `x1 ∨ ¬x2` and `x2`, after a query with the assumption `x1`, reserving variables and the
query with `¬x2`. -/
def batDemo : Batsat ToyBat := (((Batsat.new.addClause [Lit.pos 0, Lit.negOf 1]).addClause [Lit.pos 1]).solveAssumps [Lit.pos 0]).2

/-- The hypotheses hold after a history, and all results occur. -/
example : BatReach batDemo [[Lit.pos 0, Lit.negOf 1], [Lit.pos 1]] 0 ∧ batDemo.state = .sat ∧
    batDemo.litVal (Lit.pos 0) = .ok .true ∧ batDemo.litVal (Lit.negOf 1) = .ok .false ∧ batDemo.maxVar = some 1 ∧
    (batDemo.reserve 5).litVal (Lit.pos 1) = .ok .true ∧ (batDemo.reserve 5).maxVar = some 5 ∧
    (batDemo.solveAssumps [Lit.negOf 1]).1 = .unsat ∧
    (batDemo.solveAssumps [Lit.negOf 1]).2.core = .ok [Lit.pos 1] ∧
    ((batDemo.addClause [Lit.negOf 1]).solve).1 = .unsat ∧ ((batDemo.addClause [Lit.negOf 1]).solve).2.core = .ok [] :=
  ⟨((BatReach.new.add _).add _).assumps _, by decide, by decide, by decide, by decide, by decide, by decide, by decide,
    by decide, by decide, by decide⟩

end RustSat
