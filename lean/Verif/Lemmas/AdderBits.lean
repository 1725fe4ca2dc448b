import Verif.Lemmas.AdderComp
import Verif.Lemmas.Bound
/-
The clauses defining the bits of the binary adder.
-/
namespace RustSat
namespace Adder
open TotDb (trueLits)

/-! ### Clauses of single adders -/

/-- The number of true literals among the inputs of an adder. -/
def count (m : Asg) (ls : List Lit) : Nat := (ls.map fun l => (l.holds m).toNat).sum

theorem sumClauses_sat {a : Asg} {m : Mode} {ls : List Lit} {s : Lit} (h : s.holds a = decide (count a ls % 2 = 1)) :
    ClauseSet.sat a (sumClauses m ls s) := by
  unfold sumClauses
  split <;> simp only [ClauseSet.sat_cons, ClauseSet.sat_nil, Clause.sat_cons, Clause.sat_nil, Lit.holds_neg, h, count]
  · rename_i x y z
    cases hx : x.holds a <;> cases hy : y.holds a <;> cases hz : z.holds a <;> simp [hx, hy, hz]
  · rename_i x y
    cases hx : x.holds a <;> cases hy : y.holds a <;> simp [hx, hy]
  · rename_i x y z
    cases hx : x.holds a <;> cases hy : y.holds a <;> cases hz : z.holds a <;> simp [hx, hy, hz]
  · rename_i x y
    cases hx : x.holds a <;> cases hy : y.holds a <;> simp [hx, hy]

theorem carryClauses_sat {a : Asg} {m : Mode} {ls : List Lit} {s : Lit} (h : s.holds a = decide (2 ≤ count a ls)) :
    ClauseSet.sat a (carryClauses m ls s) := by
  unfold carryClauses
  split <;> simp only [ClauseSet.sat_cons, ClauseSet.sat_nil, Clause.sat_cons, Clause.sat_nil, Lit.holds_neg, h, count]
  · rename_i x y z
    cases hx : x.holds a <;> cases hy : y.holds a <;> cases hz : z.holds a <;> simp [hx, hy, hz]
  · rename_i x y
    cases hx : x.holds a <;> cases hy : y.holds a <;> simp [hx, hy]
  · rename_i x y z
    cases hx : x.holds a <;> cases hy : y.holds a <;> cases hz : z.holds a <;> simp [hx, hy, hz]
  · rename_i x y
    cases hx : x.holds a <;> cases hy : y.holds a <;> simp [hx, hy]

theorem if_sound {a : Asg} {ls : List Lit} {s c : Lit} (hl : ls.length = 2 ∨ ls.length = 3)
    (h1 : ClauseSet.sat a (sumClauses .if_ ls s)) (h2 : ClauseSet.sat a (carryClauses .if_ ls c)) :
    count a ls ≤ (s.holds a).toNat + 2 * (c.holds a).toNat := by
  match ls, hl with
  | [x, y], _ =>
    simp only [sumClauses, carryClauses, ClauseSet.sat_cons, ClauseSet.sat_nil, Clause.sat_cons, Clause.sat_nil, Lit.holds_neg,
      count, List.map_cons, List.map_nil, List.sum_cons, List.sum_nil] at *
    generalize x.holds a = x at *
    generalize y.holds a = y at *
    generalize s.holds a = s at *
    generalize c.holds a = c at *
    revert h1 h2
    revert x y s c
    decide
  | [x, y, z], _ =>
    simp only [sumClauses, carryClauses, ClauseSet.sat_cons, ClauseSet.sat_nil, Clause.sat_cons, Clause.sat_nil, Lit.holds_neg,
      count, List.map_cons, List.map_nil, List.sum_cons, List.sum_nil] at *
    generalize x.holds a = x at *
    generalize y.holds a = y at *
    generalize z.holds a = z at *
    generalize s.holds a = s at *
    generalize c.holds a = c at *
    cases x <;> cases y <;> cases z <;> cases s <;> cases c <;> simp at h1 h2 ⊢

theorem onlyIf_sound {a : Asg} {ls : List Lit} {s c : Lit} (hl : ls.length = 2 ∨ ls.length = 3)
    (h1 : ClauseSet.sat a (sumClauses .onlyIf ls s)) (h2 : ClauseSet.sat a (carryClauses .onlyIf ls c)) :
    (s.holds a).toNat + 2 * (c.holds a).toNat ≤ count a ls := by
  match ls, hl with
  | [x, y], _ =>
    simp only [sumClauses, carryClauses, ClauseSet.sat_cons, ClauseSet.sat_nil, Clause.sat_cons, Clause.sat_nil, Lit.holds_neg,
      count, List.map_cons, List.map_nil, List.sum_cons, List.sum_nil] at *
    generalize x.holds a = x at *
    generalize y.holds a = y at *
    generalize s.holds a = s at *
    generalize c.holds a = c at *
    revert h1 h2
    revert x y s c
    decide
  | [x, y, z], _ =>
    simp only [sumClauses, carryClauses, ClauseSet.sat_cons, ClauseSet.sat_nil, Clause.sat_cons, Clause.sat_nil, Lit.holds_neg,
      count, List.map_cons, List.map_nil, List.sum_cons, List.sum_nil] at *
    generalize x.holds a = x at *
    generalize y.holds a = y at *
    generalize z.holds a = z at *
    generalize s.holds a = s at *
    generalize c.holds a = c at *
    cases x <;> cases y <;> cases z <;> cases s <;> cases c <;> simp at h1 h2 ⊢

/-- The clauses of the bit of a connection. -/
def clausesOf (m : Mode) : Con → List Lit → Lit → ClauseSet
  | .input _ => fun _ _ => []
  | .sum _ => sumClauses m
  | .carry _ => carryClauses m

theorem clausesOf_vars {m : Mode} {c : Con} {ls : List Lit} {s : Lit} :
    ∀ k ∈ clausesOf m c ls s, ∀ l ∈ k, l.var = s.var ∨ ∃ x ∈ ls, x.var = l.var := by
  have h1 : ∀ k ∈ sumClauses m ls s, ∀ l ∈ k, l.var = s.var ∨ ∃ x ∈ ls, x.var = l.var := by
    unfold sumClauses
    split
    · intro k hk l hl
      simp only [List.mem_cons, List.not_mem_nil, or_false] at hk
      rcases hk with rfl | rfl | rfl | rfl <;>
        (simp only [List.mem_cons, List.not_mem_nil, or_false] at hl
         rcases hl with rfl | rfl | rfl | rfl <;> simp [Lit.var_neg])
    · intro k hk l hl
      simp only [List.mem_cons, List.not_mem_nil, or_false] at hk
      rcases hk with rfl | rfl <;>
        (simp only [List.mem_cons, List.not_mem_nil, or_false] at hl
         rcases hl with rfl | rfl | rfl <;> simp [Lit.var_neg])
    · intro k hk l hl
      simp only [List.mem_cons, List.not_mem_nil, or_false] at hk
      rcases hk with rfl | rfl | rfl | rfl <;>
        (simp only [List.mem_cons, List.not_mem_nil, or_false] at hl
         rcases hl with rfl | rfl | rfl | rfl <;> simp [Lit.var_neg])
    · intro k hk l hl
      simp only [List.mem_cons, List.not_mem_nil, or_false] at hk
      rcases hk with rfl | rfl <;>
        (simp only [List.mem_cons, List.not_mem_nil, or_false] at hl
         rcases hl with rfl | rfl | rfl <;> simp [Lit.var_neg])
    · intro k hk; cases hk
  have h2 : ∀ k ∈ carryClauses m ls s, ∀ l ∈ k, l.var = s.var ∨ ∃ x ∈ ls, x.var = l.var := by
    unfold carryClauses
    split
    · intro k hk l hl
      simp only [List.mem_cons, List.not_mem_nil, or_false] at hk
      rcases hk with rfl | rfl | rfl <;>
        (simp only [List.mem_cons, List.not_mem_nil, or_false] at hl
         rcases hl with rfl | rfl | rfl <;> simp [Lit.var_neg])
    · intro k hk l hl
      simp only [List.mem_cons, List.not_mem_nil, or_false] at hk
      rcases hk with rfl
      simp only [List.mem_cons, List.not_mem_nil, or_false] at hl
      rcases hl with rfl | rfl | rfl <;> simp [Lit.var_neg]
    · intro k hk l hl
      simp only [List.mem_cons, List.not_mem_nil, or_false] at hk
      rcases hk with rfl | rfl | rfl <;>
        (simp only [List.mem_cons, List.not_mem_nil, or_false] at hl
         rcases hl with rfl | rfl | rfl <;> simp [Lit.var_neg])
    · intro k hk l hl
      simp only [List.mem_cons, List.not_mem_nil, or_false] at hk
      rcases hk with rfl | rfl <;>
        (simp only [List.mem_cons, List.not_mem_nil, or_false] at hl
         rcases hl with rfl | rfl <;> simp [Lit.var_neg])
    · intro k hk; cases hk
  cases c with
  | input l => intro k hk; cases hk
  | sum i => exact h1
  | carry i => exact h2

/-! ### Looking up nodes -/

/-- The inputs of all nodes. -/
def shape (N : List Node) : Shape := N.map (·.ins)

/-- The output of a connection to a node. -/
def out (N : List Node) : Con → Option Out
  | .input _ => none
  | .sum j => (N[j]?).bind (·.sum)
  | .carry j => (N[j]?).bind (·.carry)

/-- The literal of a connection. -/
def litOf (N : List Node) : Con → Option Lit
  | .input l => some l
  | .sum j => (out N (.sum j)).map (·.bit)
  | .carry j => (out N (.carry j)).map (·.bit)

/-- The inputs of the node of a connection. -/
def insAt (sh : Shape) : Con → List Con
  | .input _ => []
  | .sum j => (sh[j]?).getD []
  | .carry j => (sh[j]?).getD []

/-- Changing the output of a connection. -/
def setOut (N : List Node) (c : Con) (o : Out) : List Node :=
  match c with
  | .input _ => N
  | .sum j => N.modify j fun nd => { nd with sum := some o }
  | .carry j => N.modify j fun nd => { nd with carry := some o }

theorem modify_eq_set {N : List Node} {j : Nat} {nd : Node} (h : N[j]? = some nd) (f : Node → Node) :
    N.modify j f = N.set j (f nd) := by
  apply List.ext_getElem?
  intro i
  rw [List.getElem?_modify, List.getElem?_set]
  by_cases hi : j = i
  · subst hi
    have : j < N.length := (List.getElem?_eq_some_iff.1 h).1
    obtain ⟨_, rfl⟩ := List.getElem?_eq_some_iff.1 h
    simp [this]
  · simp [hi]

theorem shape_setOut (N : List Node) (c : Con) (o : Out) : shape (setOut N c o) = shape N := by
  unfold shape
  cases c with
  | input l => rfl
  | sum j =>
    apply List.ext_getElem?
    intro i
    simp only [setOut, List.getElem?_map, List.getElem?_modify]
    cases N[i]? with
    | none => rfl
    | some nd => by_cases hj : j = i <;> simp [hj]
  | carry j =>
    apply List.ext_getElem?
    intro i
    simp only [setOut, List.getElem?_map, List.getElem?_modify]
    cases N[i]? with
    | none => rfl
    | some nd => by_cases hj : j = i <;> simp [hj]

theorem out_setOut_ne {N : List Node} {c x : Con} (o : Out) (h : x ≠ c) : out (setOut N c o) x = out N x := by
  cases c with
  | input l => rfl
  | sum j =>
    cases x with
    | input l => rfl
    | sum i =>
      have : j ≠ i := fun e => h (by rw [e])
      simp [out, setOut, List.getElem?_modify, this]
    | carry i =>
      simp only [out, setOut, List.getElem?_modify]
      cases N[i]? with
      | none => rfl
      | some nd => by_cases hj : j = i <;> simp [hj]
  | carry j =>
    cases x with
    | input l => rfl
    | carry i =>
      have : j ≠ i := fun e => h (by rw [e])
      simp [out, setOut, List.getElem?_modify, this]
    | sum i =>
      simp only [out, setOut, List.getElem?_modify]
      cases N[i]? with
      | none => rfl
      | some nd => by_cases hj : j = i <;> simp [hj]

theorem out_setOut_self {N : List Node} {c : Con} {j : Nat} (o : Out) (hc : c = .sum j ∨ c = .carry j) (hj : j < N.length) :
    out (setOut N c o) c = some o := by
  rcases hc with rfl | rfl <;> simp [out, setOut, List.getElem?_modify, List.getElem?_eq_getElem hj]

/-! ### Growing states -/

/-- Nodes only gain bits and flags. -/
structure Grow (N N' : List Node) : Prop where
  shape : shape N' = shape N
  out : ∀ c o, out N c = some o → ∃ o', Adder.out N' c = some o' ∧ o'.bit = o.bit ∧ (o.encIf = true → o'.encIf = true) ∧
    (o.encOnlyIf = true → o'.encOnlyIf = true)

theorem Grow.refl (N : List Node) : Grow N N := ⟨rfl, fun _ o h => ⟨o, h, rfl, id, id⟩⟩

theorem Grow.trans {A B C : List Node} (h1 : Grow A B) (h2 : Grow B C) : Grow A C := by
  refine ⟨h2.shape.trans h1.shape, fun c o h => ?_⟩
  obtain ⟨o1, e1, b1, i1, p1⟩ := h1.out c o h
  obtain ⟨o2, e2, b2, i2, p2⟩ := h2.out c o1 e1
  exact ⟨o2, e2, b2.trans b1, fun h => i2 (i1 h), fun h => p2 (p1 h)⟩

theorem Grow.length {A B : List Node} (h : Grow A B) : B.length = A.length := by
  have := congrArg List.length h.shape
  simpa [Adder.shape] using this

theorem Grow.lit {A B : List Node} (h : Grow A B) {c : Con} {l : Lit} (hl : litOf A c = some l) : litOf B c = some l := by
  have key : ∀ x, (Adder.out A x).map (·.bit) = some l → (Adder.out B x).map (·.bit) = some l := by
    intro x hx
    obtain ⟨o, h1, rfl⟩ := Option.map_eq_some_iff.1 hx
    obtain ⟨o', h2, h3, -⟩ := h.out x o h1
    rw [h2]; simp [h3]
  cases c with
  | input l => exact hl
  | sum j => exact key _ hl
  | carry j => exact key _ hl

theorem Grow.lits {A B : List Node} (h : Grow A B) {cs : List Con} {ls : List Lit} (hl : cs.map (litOf A) = ls.map some) :
    cs.map (litOf B) = ls.map some := by
  induction cs generalizing ls with
  | nil => exact hl
  | cons c cs ih =>
    cases ls with
    | nil => simp at hl
    | cons l ls =>
      simp only [List.map_cons, List.cons.injEq] at hl ⊢
      exact ⟨h.lit hl.1, ih hl.2⟩

/-- The clauses of the bit have been added. -/
def Emitted (m : Mode) (N : List Node) (cls : ClauseSet) (c : Con) : Prop :=
  ∃ o ls, out N c = some o ∧ (insAt (shape N) c).map (litOf N) = ls.map some ∧ ∀ k ∈ clausesOf m c ls o.bit, k ∈ cls

theorem Emitted.mono {m : Mode} {N N' : List Node} {cls cls' : ClauseSet} {c : Con} (h : Emitted m N cls c) (hg : Grow N N')
    (hc : ∀ k ∈ cls, k ∈ cls') : Emitted m N' cls' c := by
  obtain ⟨o, ls, h1, h2, h3⟩ := h
  obtain ⟨o', e1, e2, -⟩ := hg.out c o h1
  refine ⟨o', ls, e1, ?_, fun k hk => hc k (h3 k (by rwa [e2] at hk))⟩
  rw [hg.shape]; exact hg.lits h2

/-- The bit is marked as encoded in the if direction. -/
def HasIf (N : List Node) : Con → Prop
  | .input _ => True
  | .sum j => ∃ o, out N (.sum j) = some o ∧ o.encIf = true
  | .carry j => ∃ o, out N (.carry j) = some o ∧ o.encIf = true

theorem HasIf.mono {N N' : List Node} {c : Con} (h : HasIf N c) (hg : Grow N N') : HasIf N' c := by
  cases c with
  | input l => trivial
  | sum j =>
    obtain ⟨o, h1, h2⟩ := h
    obtain ⟨o', e1, -, e2, -⟩ := hg.out _ o h1
    exact ⟨o', e1, e2 h2⟩
  | carry j =>
    obtain ⟨o, h1, h2⟩ := h
    obtain ⟨o', e1, -, e2, -⟩ := hg.out _ o h1
    exact ⟨o', e1, e2 h2⟩

/-- The bit is available in the only-if direction. -/
def HasOnly (N : List Node) (cls : ClauseSet) : Con → Prop
  | .input _ => True
  | .sum j => ∃ o, out N (.sum j) = some o ∧ o.encOnlyIf = true
  | .carry j => Emitted .onlyIf N cls (.carry j)

theorem HasOnly.mono {N N' : List Node} {cls cls' : ClauseSet} {c : Con} (h : HasOnly N cls c) (hg : Grow N N')
    (hc : ∀ k ∈ cls, k ∈ cls') : HasOnly N' cls' c := by
  cases c with
  | input l => trivial
  | sum j =>
    obtain ⟨o, h1, h2⟩ := h
    obtain ⟨o', e1, -, -, e2⟩ := hg.out _ o h1
    exact ⟨o', e1, e2 h2⟩
  | carry j => exact Emitted.mono h hg hc

/-- The flag for the if direction is right. -/
def IfAt (N : List Node) (cls : ClauseSet) (c : Con) : Prop :=
  ∀ o, out N c = some o → o.encIf = true → Emitted .if_ N cls c ∧ ∀ x ∈ insAt (shape N) c, HasIf N x

/-- The flag for the only-if direction is right. -/
def OnlyAt (N : List Node) (cls : ClauseSet) (c : Con) : Prop :=
  ∀ o, out N c = some o → o.encOnlyIf = true →
    Emitted .onlyIf N cls c ∧ ∀ j, c = .sum j → ∀ x ∈ insAt (shape N) c, HasOnly N cls x

theorem IfAt.mono {N N' : List Node} {cls cls' : ClauseSet} {c : Con} (h : IfAt N cls c) (hg : Grow N N')
    (hc : ∀ k ∈ cls, k ∈ cls') (he : out N' c = out N c) : IfAt N' cls' c := by
  intro o ho hf
  obtain ⟨h1, h2⟩ := h o (by rw [← he]; exact ho) hf
  exact ⟨h1.mono hg hc, fun x hx => (h2 x (by rwa [hg.shape] at hx)).mono hg⟩

theorem OnlyAt.mono {N N' : List Node} {cls cls' : ClauseSet} {c : Con} (h : OnlyAt N cls c) (hg : Grow N N')
    (hc : ∀ k ∈ cls, k ∈ cls') (he : ∀ o, out N' c = some o → o.encOnlyIf = true → ∃ o', out N c = some o' ∧ o'.encOnlyIf = true) :
    OnlyAt N' cls' c := by
  intro o ho hf
  obtain ⟨o', ho', hf'⟩ := he o ho hf
  obtain ⟨h1, h2⟩ := h o' ho' hf'
  exact ⟨h1.mono hg hc, fun j hj x hx => (h2 j hj x (by rwa [hg.shape] at hx)).mono hg hc⟩

/-! ### The invariant of the state -/

/-- The variables obtained so far. -/
def Own (own0 : Nat → Prop) (n0 n : Nat) (v : Nat) : Prop := own0 v ∨ (n0 ≤ v ∧ v < n)

/-- `D a` extends the assignment `a` to a model in which all bits have the exact values. -/
structure SInv (V : Lit → Prop) (own0 : Nat → Prop) (n0 : Nat) (D : Asg → Asg) (N : List Node) (n : Nat) (cls : ClauseSet) :
    Prop where
  le : n0 ≤ n
  ownLt : ∀ v, own0 v → v < n0
  inLt : ∀ l, V l → l.var < n0 ∧ ¬ own0 l.var
  agree : ∀ a v, ¬ Own own0 n0 n v → D a v = a v
  sat : ∀ a, ClauseSet.sat (D a) cls
  bit : ∀ c o, out N c = some o → Own own0 n0 n o.bit.var ∧ ∀ a, o.bit.holds (D a) = eval (shape N) (trueLits a) c
  vars : ∀ k ∈ cls, ∀ l ∈ k, (∃ x, V x ∧ x.var = l.var) ∨ Own own0 n0 n l.var
  shape : ShapeOK V 0 (shape N)

namespace SInv
variable {V : Lit → Prop} {own0 : Nat → Prop} {n0 : Nat} {D : Asg → Asg} {N : List Node} {n : Nat} {cls : ClauseSet}

theorem lt (h : SInv V own0 n0 D N n cls) {v : Nat} (hv : Own own0 n0 n v) : v < n := by
  rcases hv with h1 | h1
  · exact Nat.lt_of_lt_of_le (h.ownLt v h1) h.le
  · exact h1.2

theorem input (h : SInv V own0 n0 D N n cls) {l : Lit} (hl : V l) (a : Asg) : l.holds (D a) = l.holds a := by
  apply Lit.holds_congr
  apply h.agree
  obtain ⟨h1, h2⟩ := h.inLt l hl
  rintro (h3 | h3)
  · exact h2 h3
  · omega

theorem lit (h : SInv V own0 n0 D N n cls) {c : Con} {k : Nat} (hc : c.good V k) {l : Lit} (hl : litOf N c = some l) :
    ((∃ x, V x ∧ x.var = l.var) ∨ Own own0 n0 n l.var) ∧ ∀ a, l.holds (D a) = eval (Adder.shape N) (trueLits a) c := by
  have key : ∀ x, (Adder.out N x).map (·.bit) = some l → ((∃ x, V x ∧ x.var = l.var) ∨ Own own0 n0 n l.var) ∧
      ∀ a, l.holds (D a) = eval (Adder.shape N) (trueLits a) x := by
    intro x hx
    obtain ⟨o, h1, rfl⟩ := Option.map_eq_some_iff.1 hx
    obtain ⟨h2, h3⟩ := h.bit x o h1
    exact ⟨Or.inr h2, h3⟩
  cases c with
  | input x =>
    cases hl
    refine ⟨Or.inl ⟨l, hc, rfl⟩, fun a => ?_⟩
    rw [eval_input]
    exact h.input hc a
  | sum j => exact key _ hl
  | carry j => exact key _ hl

theorem count (h : SInv V own0 n0 D N n cls) {cs : List Con} {k : Nat} (hc : ∀ c ∈ cs, c.good V k) {ls : List Lit}
    (hl : cs.map (litOf N) = ls.map some) (a : Asg) :
    Adder.count (D a) ls = (cs.map (evalN (Adder.shape N) (trueLits a))).sum := by
  unfold Adder.count
  congr 1
  induction cs generalizing ls with
  | nil => cases ls with
    | nil => rfl
    | cons _ _ => simp at hl
  | cons c cs ih =>
    cases ls with
    | nil => simp at hl
    | cons l ls =>
      simp only [List.map_cons, List.cons.injEq] at hl ⊢
      refine ⟨?_, ih (fun c hc' => hc c (by simp [hc'])) hl.2⟩
      rw [(h.lit (hc c (by simp)) hl.1).2 a]; rfl

/-- Adding the clauses of a bit. -/
theorem addClauses (h : SInv V own0 n0 D N n cls) {m : Mode} {c : Con} {j : Nat} (hc : c = .sum j ∨ c = .carry j)
    {ins : List Con} (hi : (Adder.shape N)[j]? = some ins) {o : Out} (ho : out N c = some o) {ls : List Lit}
    (hl : ins.map (litOf N) = ls.map some) : SInv V own0 n0 D N n (cls ++ clausesOf m c ls o.bit) := by
  have hgood : ∀ x ∈ ins, x.good V j := fun x hx => by simpa using (h.shape j ins hi).2 x hx
  refine ⟨h.le, h.ownLt, h.inLt, h.agree, fun a => ?_, h.bit, ?_, h.shape⟩
  · rw [ClauseSet.sat_append]
    refine ⟨h.sat a, ?_⟩
    have h1 := h.count hgood hl a
    have h2 := (h.bit c o ho).2 a
    obtain ⟨e1, e2⟩ := eval_node h.shape (trueLits a) hi
    rcases hc with rfl | rfl
    · exact sumClauses_sat (by rw [h2, e1, h1])
    · exact carryClauses_sat (by rw [h2, e2, h1])
  · intro k hk l hl'
    rcases List.mem_append.1 hk with hk | hk
    · exact h.vars k hk l hl'
    · rcases clausesOf_vars k hk l hl' with e | ⟨x, hx, e⟩
      · rw [e]; exact Or.inr (h.bit c o ho).1
      · rw [← e]
        have hm : some x ∈ ins.map (litOf N) := by rw [hl]; exact List.mem_map_of_mem hx
        obtain ⟨y, hy, hxy⟩ := List.mem_map.1 hm
        exact (h.lit (hgood y hy) hxy).1

/-- Marking an existing output. -/
theorem mark (h : SInv V own0 n0 D N n cls) {c : Con} {o o' : Out} (ho : out N c = some o) (hb : o'.bit = o.bit) :
    SInv V own0 n0 D (setOut N c o') n cls := by
  refine ⟨h.le, h.ownLt, h.inLt, h.agree, h.sat, ?_, h.vars, by rw [shape_setOut]; exact h.shape⟩
  intro x p hp
  rw [shape_setOut]
  by_cases hx : x = c
  · subst hx
    have : p = o' := by
      cases x with
      | input l => cases ho
      | sum j =>
        have hj : j < N.length := by
          apply Classical.byContradiction
          intro hn
          rw [out, List.getElem?_eq_none (by omega)] at ho; cases ho
        rw [out_setOut_self o' (Or.inl rfl) hj] at hp; cases hp; rfl
      | carry j =>
        have hj : j < N.length := by
          apply Classical.byContradiction
          intro hn
          rw [out, List.getElem?_eq_none (by omega)] at ho; cases ho
        rw [out_setOut_self o' (Or.inr rfl) hj] at hp; cases hp; rfl
    subst this
    rw [hb]; exact h.bit x o ho
  · rw [out_setOut_ne o' hx] at hp
    exact h.bit x p hp

/-- The model after obtaining a variable with a given meaning. -/
def define (D : Asg → Asg) (n : Nat) (f : Asg → Bool) (a : Asg) : Asg := fun v => if v = n then f a else D a v

theorem define_old {f : Asg → Bool} {a : Asg} {v : Nat} (h : v < n) : define D n f a v = D a v :=
  if_neg (by omega)

theorem newVar (h : SInv V own0 n0 D N n cls) (f : Asg → Bool) : SInv V own0 n0 (define D n f) N (n + 1) cls := by
  have hle := h.le
  have hown : ∀ v, Own own0 n0 n v → Own own0 n0 (n + 1) v := by
    rintro v (h1 | h1)
    · exact Or.inl h1
    · exact Or.inr ⟨h1.1, by omega⟩
  refine ⟨by omega, h.ownLt, h.inLt, fun a v hv => ?_, fun a => ?_, fun c o ho => ?_, fun k hk l hl => ?_, h.shape⟩
  · have : v ≠ n := fun e => hv (Or.inr (by omega))
    unfold define
    rw [if_neg this]
    exact h.agree a v fun hv' => hv (hown v hv')
  · refine (ClauseSet.sat_congr_vars fun k hk l hl => ?_).2 (h.sat a)
    refine define_old ?_
    rcases h.vars k hk l hl with ⟨x, hx, e⟩ | h1
    · have := (h.inLt x hx).1
      omega
    · exact h.lt h1
  · obtain ⟨h1, h2⟩ := h.bit c o ho
    refine ⟨hown _ h1, fun a => ?_⟩
    rw [← h2 a]
    exact Lit.holds_congr (define_old (h.lt h1))
  · rcases h.vars k hk l hl with h1 | h1
    · exact Or.inl h1
    · exact Or.inr (hown _ h1)

/-- A new output. -/
theorem newOut (h : SInv V own0 n0 D N n cls) {c : Con} {j : Nat} (hc : c = .sum j ∨ c = .carry j) (hj : j < N.length)
    {o : Out} (ho : o.bit = Lit.pos n) :
    SInv V own0 n0 (define D n fun a => eval (Adder.shape N) (trueLits a) c) (setOut N c o) (n + 1) cls := by
  have h1 := h.newVar fun a => eval (Adder.shape N) (trueLits a) c
  refine ⟨h1.le, h1.ownLt, h1.inLt, h1.agree, h1.sat, ?_, h1.vars, by rw [shape_setOut]; exact h1.shape⟩
  intro x p hp
  rw [shape_setOut]
  by_cases hx : x = c
  · subst hx
    rw [out_setOut_self o hc hj] at hp
    cases hp
    rw [ho]
    refine ⟨Or.inr ⟨by rw [Lit.var_pos]; exact h.le, by rw [Lit.var_pos]; omega⟩, fun a => ?_⟩
    rw [Lit.holds_pos]
    simp [define]
  · rw [out_setOut_ne o hx] at hp
    exact h1.bit x p hp

end SInv

/-! ### Getting a bit -/

section
variable {VM : Type} [ManageVars VM]

/-- The direction in which the inputs of a node are encoded. -/
def childMode (m : Mode) : Con → Mode
  | .carry _ => .if_
  | _ => m

/-- The flag that is set. -/
def markOf (m : Mode) (c : Con) (ins : List Con) : Mode :=
  match c with
  | .carry _ => carryMark m ins
  | _ => m

theorem getBit_node (fuel len : Nat) (m : Mode) {c : Con} {j : Nat} (hc : c = .sum j ∨ c = .carry j) (s : St VM) (hj : j < len)
    {nd : Node} (hn : s.nodes[j]? = some nd) :
    getBit (fuel + 1) len m c s =
      match claim m (markOf m c nd.ins) (out s.nodes c) s.vm with
      | (true, o, _) => some (o.bit, s)
      | (false, o, vm) =>
        match mapBits (getBit fuel j (childMode m c)) nd.ins ⟨setOut s.nodes c o, vm, s.cls⟩ with
        | none => none
        | some (ls, s) => some (o.bit, { s with cls := s.cls ++ clausesOf m c ls o.bit }) := by
  rcases hc with rfl | rfl
  · simp only [getBit, if_neg (by omega : ¬ len ≤ j), hn, out, Option.bind_some, markOf, childMode, setOut, clausesOf]
    obtain ⟨b, o, vm⟩ := claim m m nd.sum s.vm
    cases b with
    | true => rfl
    | false => simp only [modify_eq_set hn]; rfl
  · simp only [getBit, if_neg (by omega : ¬ len ≤ j), hn, out, Option.bind_some, markOf, childMode, setOut, clausesOf]
    obtain ⟨b, o, vm⟩ := claim m (carryMark m nd.ins) nd.carry s.vm
    cases b with
    | true => rfl
    | false => simp only [modify_eq_set hn]; rfl

/-- What encoding in direction `m`, touching nodes before `L` only, does. -/
structure Step (V : Lit → Prop) (own0 : Nat → Prop) (n0 : Nat) (m : Mode) (L : Nat) (D : Asg → Asg) (s : St VM) (D' : Asg → Asg)
    (s' : St VM) : Prop where
  inv : SInv V own0 n0 D' s'.nodes (ManageVars.nUsed s'.vm) s'.cls
  grow : Grow s.nodes s'.nodes
  above : ∀ c : Con, ¬ c.good (fun _ => True) L → out s'.nodes c = out s.nodes c
  le : ManageVars.nUsed s.vm ≤ ManageVars.nUsed s'.vm
  new : ∃ new, s'.cls = s.cls ++ new
  old : ∀ a v, v < ManageVars.nUsed s.vm → D' a v = D a v
  okIf : m = .if_ → (∀ x : Con, x.good (fun _ => True) L → IfAt s.nodes s.cls x) →
    ∀ x : Con, x.good (fun _ => True) L → IfAt s'.nodes s'.cls x
  okOnly : (∀ x : Con, x.good (fun _ => True) L → OnlyAt s.nodes s.cls x) →
    ∀ x : Con, x.good (fun _ => True) L → OnlyAt s'.nodes s'.cls x

namespace Step
variable {V : Lit → Prop} {own0 : Nat → Prop} {n0 : Nat} {m : Mode} {L : Nat} {D D1 D2 : Asg → Asg} {s s1 s2 : St VM}

theorem sub (h : Step V own0 n0 m L D s D1 s1) : ∀ k ∈ s.cls, k ∈ s1.cls := by
  obtain ⟨new, e⟩ := h.new
  intro k hk; rw [e]; exact List.mem_append_left _ hk

theorem refl (h : SInv V own0 n0 D s.nodes (ManageVars.nUsed s.vm) s.cls) : Step V own0 n0 m L D s D s :=
  ⟨h, Grow.refl _, fun _ _ => rfl, Nat.le_refl _, ⟨[], by simp⟩, fun _ _ _ => rfl, fun _ h => h, fun h => h⟩

theorem trans (h1 : Step V own0 n0 m L D s D1 s1) (h2 : Step V own0 n0 m L D1 s1 D2 s2) : Step V own0 n0 m L D s D2 s2 := by
  refine ⟨h2.inv, h1.grow.trans h2.grow, fun c hc => (h2.above c hc).trans (h1.above c hc), Nat.le_trans h1.le h2.le, ?_,
    fun a v hv => ?_, fun hm h => h2.okIf hm (h1.okIf hm h), fun h => h2.okOnly (h1.okOnly h)⟩
  · obtain ⟨a, ha⟩ := h1.new
    obtain ⟨b, hb⟩ := h2.new
    exact ⟨a ++ b, by rw [hb, ha, List.append_assoc]⟩
  · have := h1.le
    rw [h2.old a v (by omega), h1.old a v hv]

end Step

/-- The connection is available in the given direction. -/
def Has (m : Mode) (N : List Node) (cls : ClauseSet) (c : Con) : Prop :=
  match m with
  | .if_ => HasIf N c
  | .onlyIf => HasOnly N cls c

theorem Has.mono {m : Mode} {N N' : List Node} {cls cls' : ClauseSet} {c : Con} (h : Has m N cls c) (hg : Grow N N')
    (hc : ∀ k ∈ cls, k ∈ cls') : Has m N' cls' c := by
  cases m with
  | if_ => exact HasIf.mono h hg
  | onlyIf => exact HasOnly.mono h hg hc

/-- The flags of nodes before `L` that matter for the direction are right. -/
def Ready (m : Mode) (L : Nat) (N : List Node) (cls : ClauseSet) : Prop :=
  match m with
  | .if_ => ∀ x : Con, x.good (fun _ => True) L → IfAt N cls x
  | .onlyIf => ∀ x : Con, x.good (fun _ => True) L → OnlyAt N cls x

theorem Step.ready {V : Lit → Prop} {own0 : Nat → Prop} {n0 : Nat} {m : Mode} {L : Nat} {D D1 : Asg → Asg} {s s1 : St VM}
    (h : Step V own0 n0 m L D s D1 s1) (hr : Ready m L s.nodes s.cls) : Ready m L s1.nodes s1.cls := by
  cases m with
  | if_ => exact h.okIf rfl hr
  | onlyIf => exact h.okOnly hr

/-- What getting the bit of a connection does. -/
def BitOk (VM : Type) [ManageVars VM] (V : Lit → Prop) (own0 : Nat → Prop) (n0 : Nat) (m : Mode) (L : Nat) (c : Con)
    (f : St VM → Option (Lit × St VM)) : Prop :=
  ∀ (D : Asg → Asg) (s : St VM), SInv V own0 n0 D s.nodes (ManageVars.nUsed s.vm) s.cls → L ≤ s.nodes.length →
    ∃ l D' s', f s = some (l, s') ∧ Step V own0 n0 m L D s D' s' ∧ litOf s'.nodes c = some l ∧
      (Ready m L s.nodes s.cls → Has m s'.nodes s'.cls c)

theorem mapBits_spec {V : Lit → Prop} {own0 : Nat → Prop} {n0 : Nat} {m : Mode} {L : Nat} {f : Con → St VM → Option (Lit × St VM)} :
    ∀ (cs : List Con), (∀ c ∈ cs, BitOk VM V own0 n0 m L c (f c)) → ∀ (D : Asg → Asg) (s : St VM),
      SInv V own0 n0 D s.nodes (ManageVars.nUsed s.vm) s.cls → L ≤ s.nodes.length →
      ∃ ls D' s', mapBits f cs s = some (ls, s') ∧ Step V own0 n0 m L D s D' s' ∧ cs.map (litOf s'.nodes) = ls.map some ∧
        (Ready m L s.nodes s.cls → ∀ c ∈ cs, Has m s'.nodes s'.cls c) := by
  intro cs
  induction cs with
  | nil => intro _ D s h _; exact ⟨[], D, s, rfl, Step.refl h, rfl, by simp⟩
  | cons c cs ih =>
    intro hcs D s h hL
    obtain ⟨l, D1, s1, e1, st1, hl1, hr1⟩ := hcs c (by simp) D s h hL
    obtain ⟨ls, D2, s2, e2, st2, hl2, hr2⟩ := ih (fun c hc => hcs c (by simp [hc])) D1 s1 st1.inv (by rw [st1.grow.length]; exact hL)
    refine ⟨l :: ls, D2, s2, by simp [mapBits, e1, e2], st1.trans st2, ?_, ?_⟩
    · simp only [List.map_cons, List.cons.injEq]
      exact ⟨st2.grow.lit hl1, hl2⟩
    · intro hr x hx
      rcases List.mem_cons.1 hx with rfl | hx
      · exact (hr1 hr).mono st2.grow st2.sub
      · exact hr2 (st1.ready hr) x hx

theorem claim_some {chk mk : Mode} {o : Out} {vm : VM} :
    claim chk mk (some o) vm = if o.has chk then (true, o, vm) else (false, o.mark mk, vm) := rfl

theorem insAt_of {sh : Shape} {c : Con} {j : Nat} (hc : c = .sum j ∨ c = .carry j) {ins : List Con} (h : sh[j]? = some ins) :
    insAt sh c = ins := by
  rcases hc with rfl | rfl <;> simp [insAt, h]

theorem litOf_of_out {N : List Node} {c : Con} {o : Out} (h : out N c = some o) : litOf N c = some o.bit := by
  cases c with
  | input l => cases h
  | sum j => simp only [litOf, h, Option.map_some]
  | carry j => simp only [litOf, h, Option.map_some]

theorem mark_bit (m : Mode) (o : Out) : (o.mark m).bit = o.bit := by cases m <;> rfl
theorem mark_if (m : Mode) (o : Out) (h : o.encIf = true) : (o.mark m).encIf = true := by cases m <;> simp [Out.mark, h]
theorem mark_only (m : Mode) (o : Out) (h : o.encOnlyIf = true) : (o.mark m).encOnlyIf = true := by
  cases m <;> simp [Out.mark, h]

variable [LawfulVM VM]

/-- Claiming an output. -/
theorem claim_spec {V : Lit → Prop} {own0 : Nat → Prop} {n0 : Nat} {D : Asg → Asg} {s : St VM}
    (h : SInv V own0 n0 D s.nodes (ManageVars.nUsed s.vm) s.cls) {c : Con} {j : Nat} (hc : c = .sum j ∨ c = .carry j)
    (hj : j < s.nodes.length) (chk mk : Mode) :
    (∃ o, out s.nodes c = some o ∧ o.has chk = true ∧ claim chk mk (out s.nodes c) s.vm = (true, o, s.vm)) ∨
    (∃ o vm' D', claim chk mk (out s.nodes c) s.vm = (false, o, vm') ∧
      SInv V own0 n0 D' (setOut s.nodes c o) (ManageVars.nUsed vm') s.cls ∧ Grow s.nodes (setOut s.nodes c o) ∧
      ManageVars.nUsed s.vm ≤ ManageVars.nUsed vm' ∧ (∀ a v, v < ManageVars.nUsed s.vm → D' a v = D a v) ∧
      (∃ p, o = p.mark mk ∧ p.has chk = false ∧ (out s.nodes c = some p ∨ p.encIf = false ∧ p.encOnlyIf = false))) := by
  cases ho : out s.nodes c with
  | some o =>
    rw [claim_some]
    by_cases hf : o.has chk = true
    · left; exact ⟨o, rfl, hf, if_pos hf⟩
    · right
      rw [if_neg hf]
      refine ⟨o.mark mk, s.vm, D, rfl, h.mark ho (mark_bit mk o), ⟨shape_setOut _ _ _, fun x p hp => ?_⟩, Nat.le_refl _,
        fun _ _ _ => rfl, o, rfl, by simpa using hf, Or.inl rfl⟩
      by_cases hx : x = c
      · subst hx
        rw [ho] at hp; cases hp
        exact ⟨_, out_setOut_self _ hc hj, mark_bit mk _, mark_if mk _, mark_only mk _⟩
      · exact ⟨p, by rw [out_setOut_ne _ hx]; exact hp, rfl, id, id⟩
  | none =>
    right
    have h1 := LawfulVM.newVar_fst s.vm
    have h2 := LawfulVM.newVar_snd s.vm
    refine ⟨(Out.mk (ManageVars.newLit s.vm).1 false false).mark mk, (ManageVars.newLit s.vm).2,
      SInv.define D (ManageVars.nUsed s.vm) fun a => eval (Adder.shape s.nodes) (trueLits a) c, rfl, ?_,
      ⟨shape_setOut _ _ _, fun x p hp => ?_⟩, ?_, ?_, _, rfl, by cases chk <;> rfl, Or.inr ⟨rfl, rfl⟩⟩
    · rw [show ManageVars.nUsed (ManageVars.newLit s.vm).2 = ManageVars.nUsed s.vm + 1 from h2]
      exact h.newOut hc hj (by rw [mark_bit]; exact congrArg Lit.pos h1)
    · have hx : x ≠ c := fun e => by rw [e, ho] at hp; cases hp
      exact ⟨p, by rw [out_setOut_ne _ hx]; exact hp, rfl, id, id⟩
    · rw [show ManageVars.nUsed (ManageVars.newLit s.vm).2 = ManageVars.nUsed s.vm + 1 from h2]; omega
    · intro a v hv; exact SInv.define_old hv

theorem good_sum_carry {c : Con} {j L : Nat} (hc : c = .sum j ∨ c = .carry j) : c.good (fun _ => True) L ↔ j < L := by
  rcases hc with rfl | rfl <;> rfl

theorem getBit_spec (V : Lit → Prop) (own0 : Nat → Prop) (n0 : Nat) : ∀ (fuel L : Nat) (m : Mode) (c : Con), L ≤ fuel →
    c.good V L → BitOk VM V own0 n0 m L c (getBit fuel L m c) := by
  intro fuel
  induction fuel with
  | zero =>
    intro L m c hL hc D s h _
    cases c with
    | input l =>
      refine ⟨l, D, s, by unfold getBit; rfl, Step.refl h, rfl, fun _ => ?_⟩
      cases m <;> trivial
    | sum i => exact absurd hc (by simp [Con.good]; omega)
    | carry i => exact absurd hc (by simp [Con.good]; omega)
  | succ fuel ih =>
    intro L m c hL hc
    have key : ∀ j, (c = .sum j ∨ c = .carry j) → j < L → BitOk VM V own0 n0 m L c (getBit (fuel + 1) L m c) := by
      intro j hcj hjL D s h hLn
      have hjn : j < s.nodes.length := by omega
      have hnd : s.nodes[j]? = some s.nodes[j] := List.getElem?_eq_getElem hjn
      have hsh : (shape s.nodes)[j]? = some s.nodes[j].ins := by simp [shape, hjn]
      rw [getBit_node fuel L m hcj s hjL hnd]
      generalize s.nodes[j] = nd at hnd hsh
      rcases claim_spec h hcj hjn m (markOf m c nd.ins) with ⟨o, ho, hf, e⟩ | ⟨o, vm1, D1, e, inv1, g1, le1, old1, p, hp1, hp2, hp3⟩
      · -- already encoded
        rw [e]
        refine ⟨o.bit, D, s, rfl, Step.refl h, litOf_of_out ho, fun hr => ?_⟩
        cases m with
        | if_ => rcases hcj with rfl | rfl <;> exact ⟨o, ho, hf⟩
        | onlyIf =>
          rcases hcj with rfl | rfl
          · exact ⟨o, ho, hf⟩
          · exact (hr (.carry j) hjL o ho hf).1
      · rw [e]
        have hgood : ∀ x ∈ nd.ins, x.good V j := fun x hx => by simpa using (h.shape j nd.ins hsh).2 x hx
        obtain ⟨ls, D2, s2, e2, st, hls, hrc⟩ := mapBits_spec (m := childMode m c) (L := j) nd.ins
          (fun x hx => ih j (childMode m c) x (by omega) (hgood x hx)) D1 ⟨setOut s.nodes c o, vm1, s.cls⟩ inv1
          (by show j ≤ (setOut s.nodes c o).length; rw [g1.length]; omega)
        have hmatch : (match mapBits (getBit fuel j (childMode m c)) nd.ins ⟨setOut s.nodes c o, vm1, s.cls⟩ with
            | none => none
            | some (ls, s) => some (o.bit, { s with cls := s.cls ++ clausesOf m c ls o.bit })) =
            some (o.bit, ({ s2 with cls := s2.cls ++ clausesOf m c ls o.bit } : St VM)) := by rw [e2]
        simp only [hmatch]
        have hc1 : out (setOut s.nodes c o) c = some o := out_setOut_self o hcj hjn
        have hc2 : out s2.nodes c = some o := by
          rw [st.above c (fun hg => by rw [good_sum_carry hcj] at hg; omega)]; exact hc1
        have hsh2 : (shape s2.nodes)[j]? = some nd.ins := by
          rw [st.grow.shape]; show (shape (setOut s.nodes c o))[j]? = _; rw [shape_setOut]; exact hsh
        have hsub2 : ∀ k ∈ s2.cls, k ∈ s2.cls ++ clausesOf m c ls o.bit := fun k hk => List.mem_append_left _ hk
        have hsub : ∀ k ∈ s.cls, k ∈ s2.cls ++ clausesOf m c ls o.bit := fun k hk => hsub2 k (st.sub k hk)
        have g12 : Grow s.nodes s2.nodes := g1.trans st.grow
        have hother : ∀ x : Con, x ≠ c → ¬ x.good (fun _ => True) j → out s2.nodes x = out s.nodes x := by
          intro x hx hg
          rw [st.above x hg]; exact out_setOut_ne o hx
        have hemit : Emitted m s2.nodes (s2.cls ++ clausesOf m c ls o.bit) c :=
          ⟨o, ls, hc2, by rw [insAt_of hcj hsh2]; exact hls, fun k hk => List.mem_append_right _ hk⟩
        have hif : m = .if_ → (∀ x : Con, x.good (fun _ => True) L → IfAt s.nodes s.cls x) →
            ∀ x : Con, x.good (fun _ => True) L → IfAt s2.nodes (s2.cls ++ clausesOf m c ls o.bit) x := by
          intro hm hall x hx
          have hcm : childMode m c = .if_ := by subst hm; rcases hcj with rfl | rfl <;> rfl
          have hbelow : ∀ y : Con, y.good (fun _ => True) j → IfAt (setOut s.nodes c o) s.cls y := by
            intro y hy
            have hyc : y ≠ c := fun e => by rw [e, good_sum_carry hcj] at hy; omega
            exact (hall y (hy.mono (fun _ h => h) (by omega))).mono g1 (fun _ h => h) (out_setOut_ne o hyc)
          by_cases hxj : x.good (fun _ => True) j
          · exact (st.okIf hcm hbelow x hxj).mono (Grow.refl _) hsub2 rfl
          · by_cases hxc : x = c
            · subst hxc
              intro o' ho' _
              refine ⟨by rw [hm] at hemit ⊢; exact hemit, ?_⟩
              rw [insAt_of hcj hsh2]
              intro y hy
              have := hrc (by rw [hcm]; exact hbelow) y hy
              rw [hcm] at this
              exact this
            · exact (hall x hx).mono g12 hsub (hother x hxc hxj)
        have honlyBelow : (∀ x : Con, x.good (fun _ => True) L → OnlyAt s.nodes s.cls x) →
            ∀ y : Con, y.good (fun _ => True) j → OnlyAt (setOut s.nodes c o) s.cls y := by
          intro hall y hy
          have hyc : y ≠ c := fun e => by rw [e, good_sum_carry hcj] at hy; omega
          refine (hall y (hy.mono (fun _ h => h) (by omega))).mono g1 (fun _ h => h) fun o' ho' hf' => ?_
          rw [out_setOut_ne o hyc] at ho'
          exact ⟨o', ho', hf'⟩
        have honly : (∀ x : Con, x.good (fun _ => True) L → OnlyAt s.nodes s.cls x) →
            ∀ x : Con, x.good (fun _ => True) L → OnlyAt s2.nodes (s2.cls ++ clausesOf m c ls o.bit) x := by
          intro hall x hx
          by_cases hxj : x.good (fun _ => True) j
          · exact (st.okOnly (honlyBelow hall) x hxj).mono (Grow.refl _) hsub2 fun o' ho' hf' => ⟨o', ho', hf'⟩
          · by_cases hxc : x = c
            · subst hxc
              cases m with
              | if_ =>
                refine (hall x hx).mono g12 hsub fun o' ho' hf' => ?_
                rw [hc2] at ho'; cases ho'
                have hpo : p.encOnlyIf = true := by
                  rw [hp1] at hf'
                  have : markOf .if_ x nd.ins = .if_ := by
                    rcases hcj with rfl | rfl
                    · rfl
                    · simp [markOf, carryMark]
                  rw [this] at hf'; exact hf'
                rcases hp3 with hp3 | hp3
                · exact ⟨p, hp3, hpo⟩
                · rw [hp3.2] at hpo; cases hpo
              | onlyIf =>
                intro o' ho' hf'
                refine ⟨hemit, fun i hi => ?_⟩
                subst hi
                rw [insAt_of hcj hsh2]
                intro y hy
                have := hrc (honlyBelow hall) y hy
                exact HasOnly.mono this (Grow.refl _) hsub2
            · refine (hall x hx).mono g12 hsub fun o' ho' hf' => ?_
              rw [hother x hxc hxj] at ho'
              exact ⟨o', ho', hf'⟩
        refine ⟨o.bit, D2, _, rfl, ⟨?_, g12, ?_, Nat.le_trans le1 st.le, ?_, ?_, hif, honly⟩, litOf_of_out hc2, fun hr => ?_⟩
        · exact st.inv.addClauses hcj hsh2 hc2 hls
        · intro x hx
          have hxc : x ≠ c := fun e => by rw [e, good_sum_carry hcj] at hx; omega
          exact hother x hxc fun hg => hx (hg.mono (fun _ h => h) (by omega))
        · obtain ⟨new, hn⟩ := st.new
          exact ⟨new ++ clausesOf m c ls o.bit, by show s2.cls ++ _ = _; rw [hn, List.append_assoc]⟩
        · intro a v hv
          rw [st.old a v (Nat.lt_of_lt_of_le hv le1), old1 a v hv]
        · cases m with
          | if_ =>
            have hm : markOf .if_ c nd.ins = .if_ := by
              rcases hcj with rfl | rfl
              · rfl
              · simp [markOf, carryMark]
            have : o.encIf = true := by rw [hp1, hm]; rfl
            rcases hcj with rfl | rfl <;> exact ⟨o, hc2, this⟩
          | onlyIf =>
            rcases hcj with rfl | rfl
            · exact ⟨o, hc2, by rw [hp1]; rfl⟩
            · exact hemit
    cases c with
    | input l =>
      intro D s h _
      refine ⟨l, D, s, by unfold getBit; rfl, Step.refl h, rfl, fun _ => ?_⟩
      cases m <;> trivial
    | sum i => exact key i (Or.inl rfl) hc
    | carry i => exact key i (Or.inr rfl) hc

end
end Adder
end RustSat
