import Verif.Lemmas.AdderBits
import Verif.Lemmas.Simulators
/-
The invariant of the binary adder.
-/
namespace RustSat
open TotDb (wsumT trueLits wsumT_append)

namespace Adder

/-! ### Clauses are only appended -/

section
variable {VM : Type} [ManageVars VM]

/-- The same state with other clauses before. -/
def pre (P : ClauseSet) (s : St VM) : St VM := { s with cls := P ++ s.cls }

theorem mapBits_pre {P : ClauseSet} {f : Con → St VM → Option (Lit × St VM)}
    (hf : ∀ c s, f c (pre P s) = (f c s).map fun x => (x.1, pre P x.2)) : ∀ (cs : List Con) (s : St VM),
    mapBits f cs (pre P s) = (mapBits f cs s).map fun x => (x.1, pre P x.2) := by
  intro cs
  induction cs with
  | nil => intro s; rfl
  | cons c cs ih =>
    intro s
    simp only [mapBits]
    rw [hf c s]
    cases f c s with
    | none => rfl
    | some x =>
      simp only [Option.map_some]
      rw [ih x.2]
      cases mapBits f cs x.2 with
      | none => rfl
      | some y => rfl

theorem getBit_pre (P : ClauseSet) : ∀ (fuel len : Nat) (m : Mode) (c : Con) (s : St VM),
    getBit fuel len m c (pre P s) = (getBit fuel len m c s).map fun x => (x.1, pre P x.2) := by
  intro fuel
  induction fuel with
  | zero => intro len m c s; cases c <;> simp [getBit]
  | succ fuel ih =>
    intro len m c s
    cases c with
    | input l => simp [getBit]
    | sum i =>
      simp only [getBit]
      by_cases hi : len ≤ i
      · simp [hi]
      · simp only [hi, if_false]
        show (match s.nodes[i]? with | none => none | some nd => _) = _
        cases s.nodes[i]? with
        | none => rfl
        | some nd =>
          simp only
          show (match claim m m nd.sum s.vm with | (true, o, _) => _ | (false, o, vm) => _) = _
          obtain ⟨b, o, vm⟩ := claim m m nd.sum s.vm
          cases b with
          | true => rfl
          | false =>
            simp only
            have := mapBits_pre (P := P) (fun c s => ih i m c s) nd.ins ⟨s.nodes.set i { nd with sum := some o }, vm, s.cls⟩
            rw [show (⟨(pre P s).nodes.set i { nd with sum := some o }, vm, (pre P s).cls⟩ : St VM) =
              pre P ⟨s.nodes.set i { nd with sum := some o }, vm, s.cls⟩ from rfl, this]
            cases mapBits (getBit fuel i m) nd.ins ⟨s.nodes.set i { nd with sum := some o }, vm, s.cls⟩ with
            | none => rfl
            | some x => simp [pre]
    | carry i =>
      simp only [getBit]
      by_cases hi : len ≤ i
      · simp [hi]
      · simp only [hi, if_false]
        show (match s.nodes[i]? with | none => none | some nd => _) = _
        cases s.nodes[i]? with
        | none => rfl
        | some nd =>
          simp only
          show (match claim m (carryMark m nd.ins) nd.carry s.vm with | (true, o, _) => _ | (false, o, vm) => _) = _
          obtain ⟨b, o, vm⟩ := claim m (carryMark m nd.ins) nd.carry s.vm
          cases b with
          | true => rfl
          | false =>
            simp only
            have := mapBits_pre (P := P) (fun c s => ih i .if_ c s) nd.ins ⟨s.nodes.set i { nd with carry := some o }, vm, s.cls⟩
            rw [show (⟨(pre P s).nodes.set i { nd with carry := some o }, vm, (pre P s).cls⟩ : St VM) =
              pre P ⟨s.nodes.set i { nd with carry := some o }, vm, s.cls⟩ from rfl, this]
            cases mapBits (getBit fuel i .if_) nd.ins ⟨s.nodes.set i { nd with carry := some o }, vm, s.cls⟩ with
            | none => rfl
            | some x => simp [pre]

theorem outputBits_pre (P : ClauseSet) (m : Mode) : ∀ (os : List (Option Con)) (s : St VM),
    BinaryAdder.outputBits m os (pre P s) = (BinaryAdder.outputBits m os s).map fun x => (x.1, pre P x.2) := by
  intro os
  induction os with
  | nil => intro s; rfl
  | cons o os ih =>
    intro s
    cases o with
    | none =>
      simp only [BinaryAdder.outputBits]
      rw [ih s]
      cases BinaryAdder.outputBits m os s with
      | none => rfl
      | some x => rfl
    | some c =>
      simp only [BinaryAdder.outputBits]
      rw [show (pre P s).nodes = s.nodes from rfl, getBit_pre]
      cases getBit s.nodes.length s.nodes.length m c s with
      | none => rfl
      | some x =>
        simp only [Option.map_some]
        rw [ih x.2]
        cases BinaryAdder.outputBits m os x.2 with
        | none => rfl
        | some x => rfl

theorem ubLoop_pre (P : ClauseSet) (outs : List (Option Lit)) : ∀ (vals : List Nat) (comp : List (Option Out)) (vm : VM)
    (cls : ClauseSet), BinaryAdder.ubLoop outs vals comp vm (P ++ cls) =
      ((BinaryAdder.ubLoop outs vals comp vm cls).1, (BinaryAdder.ubLoop outs vals comp vm cls).2.1,
        P ++ (BinaryAdder.ubLoop outs vals comp vm cls).2.2) := by
  intro vals
  induction vals with
  | nil => intro comp vm cls; rfl
  | cons v vals ih =>
    intro comp vm cls
    simp only [BinaryAdder.ubLoop]
    obtain ⟨b, o, vm'⟩ := claim .if_ .if_ (comp[v]?.getD none) vm
    cases b with
    | true => exact ih comp vm cls
    | false => simp only [List.append_assoc]; exact ih _ _ _

theorem lbLoop_pre (P : ClauseSet) (outs : List (Option Lit)) : ∀ (vals : List Nat) (comp : List (Option Out)) (vm : VM)
    (cls : ClauseSet), BinaryAdder.lbLoop outs vals comp vm (P ++ cls) =
      ((BinaryAdder.lbLoop outs vals comp vm cls).1, (BinaryAdder.lbLoop outs vals comp vm cls).2.1,
        P ++ (BinaryAdder.lbLoop outs vals comp vm cls).2.2) := by
  intro vals
  induction vals with
  | nil => intro comp vm cls; rfl
  | cons v vals ih =>
    intro comp vm cls
    simp only [BinaryAdder.lbLoop]
    obtain ⟨b, o, vm'⟩ := claim .if_ .onlyIf (comp[v - 1]?.getD none) vm
    cases b with
    | true => exact ih comp vm cls
    | false => simp only [List.append_assoc]; exact ih _ _ _

/-- The result of an encoding call does not depend on the clauses collected before. -/
theorem encodeChange_pre (m : Mode) (e : BinaryAdder) (range : Nat × Nat) (vm : VM) (P : ClauseSet) :
    e.encodeChange m range vm P = (e.encodeChange m range vm []).map fun x => (x.1, x.2.1, P ++ x.2.2) := by
  unfold BinaryAdder.encodeChange
  by_cases h : range.2 ≤ range.1
  · simp [h]
  · simp only [h, if_false]
    cases e.extendStructure.structure_ with
    | none => simp
    | some str =>
      simp only
      have h1 := outputBits_pre P m str.outputs (⟨e.extendStructure.nodes, vm, []⟩ : St VM)
      rw [show pre P (⟨e.extendStructure.nodes, vm, []⟩ : St VM) = ⟨e.extendStructure.nodes, vm, P⟩ by simp [pre]] at h1
      rw [h1]
      cases BinaryAdder.outputBits m str.outputs (⟨e.extendStructure.nodes, vm, []⟩ : St VM) with
      | none => rfl
      | some x =>
        obtain ⟨outs, s⟩ := x
        simp only [Option.map_some, pre]
        cases m with
        | if_ => simp only [ubLoop_pre]; simp
        | onlyIf => simp only [lbLoop_pre]; simp
end

/-! ### Values of bits -/

/-- The value of a connection in an assignment. -/
def litVal (m : Asg) (N : List Node) (c : Con) : Nat :=
  match litOf N c with
  | some l => (l.holds m).toNat
  | none => 0

theorem cval_outs (m : Asg) (f : Con → Option Lit) : ∀ (os : List (Option Con)) (i : Nat),
    bval (fun c => match f c with | some l => (l.holds m).toNat | none => 0) i (os.map Option.toList) =
      2 ^ i * cval m (os.map fun o => o.bind f) := by
  intro os
  induction os with
  | nil => intro i; simp [bval, cval]
  | cons o os ih =>
    intro i
    simp only [List.map_cons, bval, cval]
    rw [ih, Nat.pow_succ]
    have : (o.toList.map fun c => match f c with | some l => (l.holds m).toNat | none => 0).sum = obit m (o.bind f) := by
      cases o with
      | none => rfl
      | some c =>
        simp only [Option.toList_some, List.map_cons, List.map_nil, List.sum_cons, List.sum_nil, Nat.add_zero, Option.bind_some]
        cases f c with
        | none => rfl
        | some l => cases h : l.holds m <;> simp [obit, h]
    rw [this]; ring

theorem bval_congr {v w : Con → Nat} : ∀ {os : List (Option Con)} {i : Nat}, (∀ c, some c ∈ os → v c = w c) →
    bval v i (os.map Option.toList) = bval w i (os.map Option.toList) := by
  intro os
  induction os with
  | nil => intro i _; rfl
  | cons o os ih =>
    intro i h
    simp only [List.map_cons, bval]
    rw [ih fun c hc => h c (by simp [hc])]
    cases o with
    | none => rfl
    | some c => simp [h c (by simp)]

theorem bval_lt {v : Con → Nat} (hv : ∀ c, v c ≤ 1) : ∀ (os : List (Option Con)) (i : Nat),
    bval v i (os.map Option.toList) + 2 ^ i ≤ 2 ^ (i + os.length) := by
  intro os
  induction os with
  | nil => intro i; simp [bval]
  | cons o os ih =>
    intro i
    have h1 := ih (i + 1)
    simp only [List.map_cons, bval, List.length_cons]
    rw [show i + (os.length + 1) = i + 1 + os.length by omega]
    have h2 : (o.toList.map v).sum ≤ 1 := by
      cases o with
      | none => simp
      | some c => simpa using hv c
    have h3 := Nat.mul_le_mul_left (2 ^ i) h2
    rw [Nat.pow_succ] at h1
    omega

theorem inval_litVal (m : Asg) (N : List Node) (ins : List (Lit × Nat)) : inval (litVal m N) ins = wsumT (trueLits m) ins := by
  unfold inval wsumT
  congr 1
  apply List.map_congr_left
  intro x _
  simp only [litVal, litOf, trueLits]
  by_cases h : x.1.holds m = true
  · simp [h]
  · simp [h]

theorem map_some_inj {a b : List Lit} (h : a.map some = b.map some) : a = b := by
  induction a generalizing b with
  | nil => cases b with
    | nil => rfl
    | cons _ _ => simp at h
  | cons x a ih =>
    cases b with
    | nil => simp at h
    | cons y b =>
      simp only [List.map_cons, List.cons.injEq, Option.some.injEq] at h
      rw [h.1, ih h.2]

theorem litVal_count {m : Asg} {N : List Node} {cs : List Con} {ls : List Lit} (h : cs.map (litOf N) = ls.map some) :
    (cs.map (litVal m N)).sum = count m ls := by
  unfold count
  congr 1
  induction cs generalizing ls with
  | nil => cases ls with
    | nil => rfl
    | cons _ _ => simp at h
  | cons c cs ih =>
    cases ls with
    | nil => simp at h
    | cons l ls =>
      simp only [List.map_cons, List.cons.injEq] at h ⊢
      exact ⟨by simp [litVal, h.1], ih h.2⟩

theorem lits_length {N : List Node} {cs : List Con} {ls : List Lit} (h : cs.map (litOf N) = ls.map some) :
    ls.length = cs.length := by
  have := congrArg List.length h
  simpa using this.symm

/-- All bits are available in the if direction. -/
theorem all_if {V : Lit → Prop} {N : List Node} {cls : ClauseSet} {os : List (Option Con)} {cols : List Nat}
    {ins : List (Lit × Nat)} (hs : ShapeOK V 0 (shape N)) (hb : Balanced os (shape N) cols ins) (hif : ∀ c, IfAt N cls c)
    (ho : ∀ c, some c ∈ os → HasIf N c) :
    ∀ (d j : Nat), j + d = N.length → 0 < d → HasIf N (.sum j) ∧ HasIf N (.carry j) := by
  have hlen : (shape N).length = N.length := by simp [shape]
  intro d
  induction d using Nat.strongRecOn with
  | _ d ih =>
    intro j hj hd
    have key : ∀ c : Con, (c = .sum j ∨ c = .carry j) → HasIf N c := by
      intro c hc
      rcases hb.used hc (by omega) with h | ⟨k, i, hk, hi⟩
      · exact ho c h
      · have hkl : k < N.length := by rw [← hlen]; exact (List.getElem?_eq_some_iff.1 hk).1
        have hjk : j < k := by
          have := (hs k i hk).2 c hi
          rcases hc with rfl | rfl <;> simpa [Con.good] using this
        obtain ⟨⟨o, h1, h2⟩, -⟩ := ih (N.length - k) (by omega) k (by omega) (by omega)
        exact (hif (.sum k) o h1 h2).2 c (by rw [insAt_of (Or.inl rfl) hk]; exact hi)
    exact ⟨key _ (Or.inl rfl), key _ (Or.inr rfl)⟩

/-- All bits are available in the only-if direction. -/
theorem all_only {V : Lit → Prop} {N : List Node} {cls : ClauseSet} {os : List (Option Con)} {cols : List Nat}
    {ins : List (Lit × Nat)} (hs : ShapeOK V 0 (shape N)) (hb : Balanced os (shape N) cols ins) (hon : ∀ c, OnlyAt N cls c)
    (ho : ∀ c, some c ∈ os → HasOnly N cls c) :
    ∀ (d j : Nat), j + d = N.length → 0 < d → HasOnly N cls (.sum j) ∧ HasOnly N cls (.carry j) := by
  have hlen : (shape N).length = N.length := by simp [shape]
  intro d
  induction d using Nat.strongRecOn with
  | _ d ih =>
    intro j hj hd
    have key : ∀ c : Con, (c = .sum j ∨ c = .carry j) → HasOnly N cls c := by
      intro c hc
      rcases hb.used hc (by omega) with h | ⟨k, i, hk, hi⟩
      · exact ho c h
      · have hkl : k < N.length := by rw [← hlen]; exact (List.getElem?_eq_some_iff.1 hk).1
        have hjk : j < k := by
          have := (hs k i hk).2 c hi
          rcases hc with rfl | rfl <;> simpa [Con.good] using this
        obtain ⟨⟨o, h1, h2⟩, -⟩ := ih (N.length - k) (by omega) k (by omega) (by omega)
        exact (hon (.sum k) o h1 h2).2 k rfl c (by rw [insAt_of (Or.inl rfl) hk]; exact hi)
    exact ⟨key _ (Or.inl rfl), key _ (Or.inr rfl)⟩

theorem emitted_node {m : Mode} {N : List Node} {cls : ClauseSet} {j : Nat} {ins : List Con} (hj : (shape N)[j]? = some ins)
    (h1 : Emitted m N cls (.sum j)) (h2 : Emitted m N cls (.carry j)) : ∃ ls s c, ins.map (litOf N) = ls.map some ∧
      litOf N (.sum j) = some s ∧ litOf N (.carry j) = some c ∧ (∀ k ∈ sumClauses m ls s, k ∈ cls) ∧
      ∀ k ∈ carryClauses m ls c, k ∈ cls := by
  obtain ⟨o1, l1, a1, b1, c1⟩ := h1
  obtain ⟨o2, l2, a2, b2, c2⟩ := h2
  rw [insAt_of (Or.inl rfl) hj] at b1
  rw [insAt_of (Or.inr rfl) hj] at b2
  have : l2 = l1 := map_some_inj (b2.symm.trans b1)
  subst this
  exact ⟨l2, o1.bit, o2.bit, b1, litOf_of_out a1, litOf_of_out a2, c1, c2⟩

/-- In every model, the outputs are at least the sum of the inputs. -/
theorem le_outs {V : Lit → Prop} {N : List Node} {cls : ClauseSet} {os : List (Option Con)} {cols : List Nat}
    {ins : List (Lit × Nat)} (hs : ShapeOK V 0 (shape N)) (hb : Balanced os (shape N) cols ins) (hif : ∀ c, IfAt N cls c)
    (ho : ∀ c, some c ∈ os → HasIf N c) {m : Asg} (hm : ClauseSet.sat m cls) :
    wsumT (trueLits m) ins ≤ cval m (os.map fun o => o.bind (litOf N)) := by
  have h := hb.le (v := litVal m N) fun j c hj => by
    have hjl : j < N.length := by
      have := (List.getElem?_eq_some_iff.1 hj).1
      simpa [shape] using this
    obtain ⟨⟨o1, a1, b1⟩, o2, a2, b2⟩ := all_if hs hb hif ho (N.length - j) j (by omega) (by omega)
    obtain ⟨ls, s, cc, e1, e2, e3, e4, e5⟩ := emitted_node hj (hif _ o1 a1 b1).1 (hif _ o2 a2 b2).1
    rw [litVal_count e1]
    have := if_sound (by rw [lits_length e1]; exact (hs j c hj).1) (fun k hk => hm k (e4 k hk)) (fun k hk => hm k (e5 k hk))
    simpa [litVal, e2, e3] using this
  rw [inval_litVal] at h
  have h2 := cval_outs m (litOf N) os 0
  rw [Nat.pow_zero, Nat.one_mul] at h2
  rw [← h2]; exact h

/-- In every model, the outputs are at most the sum of the inputs. -/
theorem ge_outs {V : Lit → Prop} {N : List Node} {cls : ClauseSet} {os : List (Option Con)} {cols : List Nat}
    {ins : List (Lit × Nat)} (hs : ShapeOK V 0 (shape N)) (hb : Balanced os (shape N) cols ins) (hon : ∀ c, OnlyAt N cls c)
    (ho : ∀ c, some c ∈ os → HasOnly N cls c) {m : Asg} (hm : ClauseSet.sat m cls) :
    cval m (os.map fun o => o.bind (litOf N)) ≤ wsumT (trueLits m) ins := by
  have h := hb.ge (v := litVal m N) fun j c hj => by
    have hjl : j < N.length := by
      have := (List.getElem?_eq_some_iff.1 hj).1
      simpa [shape] using this
    obtain ⟨⟨o1, a1, b1⟩, h2⟩ := all_only hs hb hon ho (N.length - j) j (by omega) (by omega)
    obtain ⟨ls, s, cc, e1, e2, e3, e4, e5⟩ := emitted_node hj (hon _ o1 a1 b1).1 h2
    rw [litVal_count e1]
    have := onlyIf_sound (by rw [lits_length e1]; exact (hs j c hj).1) (fun k hk => hm k (e4 k hk)) (fun k hk => hm k (e5 k hk))
    simpa [litVal, e2, e3] using this
  rw [inval_litVal] at h
  have h2 := cval_outs m (litOf N) os 0
  rw [Nat.pow_zero, Nat.one_mul] at h2
  rw [← h2]; exact h

/-- The extended assignments make the outputs exact. -/
theorem SInv.outs {V : Lit → Prop} {own0 : Nat → Prop} {n0 : Nat} {D : Asg → Asg} {N : List Node} {n : Nat} {cls : ClauseSet}
    (h : SInv V own0 n0 D N n cls) {os : List (Option Con)} {cols : List Nat} {ins : List (Lit × Nat)}
    (hb : Balanced os (Adder.shape N) cols ins) {k : Nat} (hg : ∀ c, some c ∈ os → c.good V k)
    (hl : ∀ c, some c ∈ os → ∃ l, litOf N c = some l) (a : Asg) :
    cval (D a) (os.map fun o => o.bind (litOf N)) = wsumT (trueLits a) ins := by
  have h2 := cval_outs (D a) (litOf N) os 0
  rw [Nat.pow_zero, Nat.one_mul] at h2
  rw [← h2, ← hb.exact h.shape]
  refine bval_congr fun c hc => ?_
  obtain ⟨l, e⟩ := hl c hc
  simp only [e]
  rw [(h.lit (hg c hc) e).2 a]; rfl

/-! ### The outputs of the structure -/

section
variable {VM : Type} [ManageVars VM] [LawfulVM VM]

theorem outputBits_spec {V : Lit → Prop} {own0 : Nat → Prop} {n0 : Nat} (m : Mode) (L : Nat) : ∀ (os : List (Option Con)),
    (∀ c, some c ∈ os → c.good V L) → ∀ (D : Asg → Asg) (s : St VM),
      SInv V own0 n0 D s.nodes (ManageVars.nUsed s.vm) s.cls → s.nodes.length = L →
      ∃ ls D' s', BinaryAdder.outputBits m os s = some (ls, s') ∧ Step V own0 n0 m L D s D' s' ∧
        ls = os.map (fun o => o.bind (litOf s'.nodes)) ∧ (∀ c, some c ∈ os → ∃ l, litOf s'.nodes c = some l) ∧
        (Ready m L s.nodes s.cls → ∀ c, some c ∈ os → Has m s'.nodes s'.cls c) := by
  intro os
  induction os with
  | nil => intro _ D s h _; exact ⟨[], D, s, rfl, Step.refl h, rfl, by simp, by simp⟩
  | cons o os ih =>
    intro hos D s h hL
    cases o with
    | none =>
      obtain ⟨ls, D2, s2, e2, st2, hl2, hx2, hr2⟩ := ih (fun c hc => hos c (by simp [hc])) D s h hL
      refine ⟨none :: ls, D2, s2, by simp [BinaryAdder.outputBits, e2], st2, by simp [hl2], ?_, ?_⟩
      · intro c hc; exact hx2 c (by simpa using hc)
      · intro hr c hc; exact hr2 hr c (by simpa using hc)
    | some c =>
      obtain ⟨l, D1, s1, e1, st1, hl1, hr1⟩ := getBit_spec V own0 n0 L L m c (Nat.le_refl _) (hos c (by simp)) D s h (by omega)
      obtain ⟨ls, D2, s2, e2, st2, hl2, hx2, hr2⟩ := ih (fun c hc => hos c (by simp [hc])) D1 s1 st1.inv
        (by rw [st1.grow.length]; exact hL)
      refine ⟨some l :: ls, D2, s2, ?_, st1.trans st2, ?_, ?_, ?_⟩
      · simp [BinaryAdder.outputBits, hL, e1, e2]
      · simp [hl2, st2.grow.lit hl1]
      · intro x hx
        rcases List.mem_cons.1 hx with h | h
        · cases h; exact ⟨l, st2.grow.lit hl1⟩
        · exact hx2 x h
      · intro hr x hx
        rcases List.mem_cons.1 hx with h | h
        · cases h; exact (hr1 hr).mono st2.grow st2.sub
        · exact hr2 (st1.ready hr) x h

end

/-! ### Comparator outputs -/

/-- The comparator output for the value `i` is right; for upper bounds only if `t`. -/
structure CompAt (t : Prop) (own : Nat → Prop) (sins : List (Lit × Nat)) (D : Asg → Asg) (cls : ClauseSet) (i : Nat) (o : Out) : Prop where
  own : own o.bit.var
  exact : ∀ a, o.bit.holds (D a) = decide (i < wsumT (trueLits a) sins)
  ifOk : t → o.encIf = true → ∀ m, ClauseSet.sat m cls → o.bit.holds m = false → wsumT (trueLits m) sins ≤ i
  onlyOk : o.encOnlyIf = true → ∀ m, ClauseSet.sat m cls → o.bit.holds m = true → i < wsumT (trueLits m) sins

theorem CompAt.mono {t : Prop} {own own' : Nat → Prop} {sins : List (Lit × Nat)} {D D' : Asg → Asg} {cls cls' : ClauseSet} {i : Nat}
    {o : Out} (h : CompAt t own sins D cls i o) (ho : ∀ v, own v → own' v) (hD : ∀ a, D' a o.bit.var = D a o.bit.var)
    (hc : ∀ m, ClauseSet.sat m cls' → ClauseSet.sat m cls) : CompAt t own' sins D' cls' i o :=
  ⟨ho _ h.own, fun a => by rw [← h.exact a]; exact Lit.holds_congr (hD a), fun ht hf m hm => h.ifOk ht hf m (hc m hm),
    fun hf m hm => h.onlyOk hf m (hc m hm)⟩

/-- The invariant of the loops over values. -/
structure LInv (t : Prop) (V : Lit → Prop) (own0 : Nat → Prop) (n0 : Nat) (sins : List (Lit × Nat)) (outs : List (Option Lit))
    (N : List Node) (m : Mode) (D : Asg → Asg) (comp : List (Option Out)) (n : Nat) (cls : ClauseSet) : Prop where
  s : SInv V own0 n0 D N n cls
  comp : ∀ i o, comp[i]? = some (some o) → CompAt t (Own own0 n0 n) sins D cls i o
  exact : ∀ a, cval (D a) outs = wsumT (trueLits a) sins
  outsOk : ∀ l, some l ∈ outs → (∃ x, V x ∧ x.var = l.var) ∨ Own own0 n0 n l.var
  sound : ∀ a, ClauseSet.sat a cls →
    match m with
    | .if_ => t → wsumT (trueLits a) sins ≤ cval a outs
    | .onlyIf => cval a outs ≤ wsumT (trueLits a) sins

theorem cval_congr {a b : Asg} : ∀ {xs : List (Option Lit)}, (∀ l, some l ∈ xs → a l.var = b l.var) → cval a xs = cval b xs := by
  intro xs
  induction xs with
  | nil => intro _; rfl
  | cons x xs ih =>
    intro h
    simp only [cval]
    rw [ih fun l hl => h l (by simp [hl])]
    cases x with
    | none => rfl
    | some l => simp [obit, Lit.holds_congr (h l (by simp))]

/-- Comparator outputs only gain flags. -/
def CompGrow (comp comp' : List (Option Out)) : Prop :=
  comp'.length = comp.length ∧ ∀ (i : Nat) o, comp[i]? = some (some o) → ∃ o', comp'[i]? = some (some o') ∧
    (o.encIf = true → o'.encIf = true) ∧ (o.encOnlyIf = true → o'.encOnlyIf = true)

theorem CompGrow.trans {a b c : List (Option Out)} (h1 : CompGrow a b) (h2 : CompGrow b c) : CompGrow a c := by
  refine ⟨h2.1.trans h1.1, fun i o h => ?_⟩
  obtain ⟨o1, e1, a1, b1⟩ := h1.2 i o h
  obtain ⟨o2, e2, a2, b2⟩ := h2.2 i o1 e1
  exact ⟨o2, e2, fun h => a2 (a1 h), fun h => b2 (b1 h)⟩

theorem CompGrow.refl (a : List (Option Out)) : CompGrow a a := ⟨rfl, fun _ o h => ⟨o, h, id, id⟩⟩

section
variable {VM : Type} [ManageVars VM] [LawfulVM VM]

/-- The clauses of a comparator. -/
def comparator (m : Mode) (i : Nat) (b : Lit) (outs : List (Option Lit)) : ClauseSet :=
  match m with
  | .if_ => comparatorIf i b outs
  | .onlyIf => comparatorOnlyIf i b outs

/-- One comparator. -/
theorem compStep {t : Prop} {V : Lit → Prop} {own0 : Nat → Prop} {n0 : Nat} {sins : List (Lit × Nat)} {outs : List (Option Lit)}
    {N : List Node} {m : Mode} {D : Asg → Asg} {comp : List (Option Out)} {vm : VM} {cls : ClauseSet}
    (h : LInv t V own0 n0 sins outs N m D comp (ManageVars.nUsed vm) cls) {i : Nat} (hi : i < comp.length)
    (hfit : i < 2 ^ outs.length) :
    (∃ o, comp[i]? = some (some o) ∧ o.encIf = true ∧ claim .if_ m (comp[i]?.getD none) vm = (true, o, vm)) ∨
    (∃ p vm' D', claim .if_ m (comp[i]?.getD none) vm = (false, p.mark m, vm') ∧
      LInv t V own0 n0 sins outs N m D' (comp.set i (some (p.mark m))) (ManageVars.nUsed vm')
        (cls ++ comparator m i (p.mark m).bit outs) ∧
      ManageVars.nUsed vm ≤ ManageVars.nUsed vm' ∧ p.encIf = false ∧ CompGrow comp (comp.set i (some (p.mark m))) ∧
      (comp[i]? = some (some p) ∨ (comp[i]? = some none ∧ p.encOnlyIf = false)) ∧
      ∀ a v, v < ManageVars.nUsed vm → D' a v = D a v) := by
  -- adding the clauses
  have key : ∀ (p : Out) (vm' : VM) (D' : Asg → Asg), ManageVars.nUsed vm ≤ ManageVars.nUsed vm' →
      SInv V own0 n0 D' N (ManageVars.nUsed vm') cls → (∀ a v, v < ManageVars.nUsed vm → D' a v = D a v) →
      CompAt t (Own own0 n0 (ManageVars.nUsed vm')) sins D' cls i p →
      LInv t V own0 n0 sins outs N m D' (comp.set i (some (p.mark m))) (ManageVars.nUsed vm')
        (cls ++ comparator m i (p.mark m).bit outs) := by
    intro p vm' D' hle hs hD hp
    have hown : ∀ v, Own own0 n0 (ManageVars.nUsed vm) v → Own own0 n0 (ManageVars.nUsed vm') v := by
      rintro v (h1 | h1)
      · exact Or.inl h1
      · exact Or.inr ⟨h1.1, by omega⟩
    have hex : ∀ a, cval (D' a) outs = wsumT (trueLits a) sins := by
      intro a
      rw [← h.exact a]
      refine cval_congr fun l hl => hD a _ ?_
      rcases h.outsOk l hl with ⟨x, hx, e⟩ | h1
      · have := (h.s.inLt x hx).1; have := h.s.le; omega
      · exact h.s.lt h1
    have hsat : ∀ a, ClauseSet.sat (D' a) (comparator m i (p.mark m).bit outs) := by
      intro a
      rw [mark_bit]
      have e := hp.exact a
      cases m with
      | if_ =>
        refine (comparatorIf_spec _ _ hfit).2 fun hlt => ?_
        rw [hex a] at hlt; rw [e]; simpa using hlt
      | onlyIf =>
        refine (comparatorOnlyIf_spec _ _ hfit).2 fun hlt => ?_
        rw [hex a] at hlt; rw [e]; simpa using hlt
    have hvars : ∀ k ∈ comparator m i (p.mark m).bit outs, ∀ l ∈ k,
        l.var = p.bit.var ∨ ∃ x, some x ∈ outs ∧ x.var = l.var := by
      rw [mark_bit]
      cases m with
      | if_ => exact comparatorIf_vars
      | onlyIf => exact comparatorOnlyIf_vars
    refine ⟨⟨hs.le, hs.ownLt, hs.inLt, hs.agree, fun a => ?_, hs.bit, fun k hk l hl => ?_, hs.shape⟩, fun j o hj => ?_, hex,
      fun l hl => ?_, fun a ha => ?_⟩
    · rw [ClauseSet.sat_append]; exact ⟨hs.sat a, hsat a⟩
    · rcases List.mem_append.1 hk with hk | hk
      · exact hs.vars k hk l hl
      · rcases hvars k hk l hl with e | ⟨x, hx, e⟩
        · rw [e]; exact Or.inr hp.own
        · rw [← e]
          rcases h.outsOk x hx with h1 | h1
          · exact Or.inl h1
          · exact Or.inr (hown _ h1)
    · rw [List.getElem?_set] at hj
      by_cases hij : i = j
      · subst hij
        rw [if_pos rfl, if_pos hi] at hj
        cases hj
        have hp' := hp.mono (cls' := cls ++ comparator m i (p.mark m).bit outs) (fun v hv => hv) (fun _ => rfl)
          (fun a ha => ((ClauseSet.sat_append _ _ _).1 ha).1)
        refine ⟨by rw [mark_bit]; exact hp.own, fun a => by rw [mark_bit]; exact hp.exact a, fun ht hf a ha hb => ?_,
          fun hf a ha hb => ?_⟩
        · cases m with
          | if_ =>
            obtain ⟨h1, h2⟩ := (ClauseSet.sat_append _ _ _).1 ha
            have h3 := (comparatorIf_spec _ _ hfit).1 h2
            have h4 : wsumT (trueLits a) sins ≤ cval a outs := h.sound a h1 ht
            by_cases h5 : i < cval a outs
            · rw [h3 h5] at hb; cases hb
            · omega
          | onlyIf => exact hp'.ifOk ht hf a ha hb
        · cases m with
          | if_ => exact hp'.onlyOk hf a ha hb
          | onlyIf =>
            obtain ⟨h1, h2⟩ := (ClauseSet.sat_append _ _ _).1 ha
            have h3 := (comparatorOnlyIf_spec _ _ hfit).1 h2
            have h4 : cval a outs ≤ wsumT (trueLits a) sins := h.sound a h1
            by_cases h5 : cval a outs ≤ i
            · rw [h3 h5] at hb; cases hb
            · omega
      · rw [if_neg hij] at hj
        have hc := h.comp j o hj
        exact hc.mono hown (fun a => hD a _ (h.s.lt hc.own)) fun a ha => ((ClauseSet.sat_append _ _ _).1 ha).1
    · rcases h.outsOk l hl with h1 | h1
      · exact Or.inl h1
      · exact Or.inr (hown _ h1)
    · exact h.sound a ((ClauseSet.sat_append _ _ _).1 ha).1
  have hset : ∀ (p : Out), (∀ o, comp[i]? = some (some o) → o = p) → CompGrow comp (comp.set i (some (p.mark m))) := by
    intro p hp
    refine ⟨by simp, fun j o hj => ?_⟩
    rw [List.getElem?_set]
    by_cases hij : i = j
    · subst hij
      rw [if_pos rfl, if_pos hi]
      have := hp o hj
      subst this
      exact ⟨_, rfl, mark_if m _, mark_only m _⟩
    · rw [if_neg hij]; exact ⟨o, hj, id, id⟩
  cases hc : comp[i]? with
  | none => rw [List.getElem?_eq_none_iff] at hc; omega
  | some oo =>
    cases oo with
    | some o =>
      simp only [Option.getD_some, claim_some]
      by_cases hf : o.encIf = true
      · left; exact ⟨o, rfl, hf, by simp [Out.has, hf]⟩
      · right
        refine ⟨o, vm, D, by simp [Out.has, hf], key o vm D (Nat.le_refl _) h.s (fun _ _ _ => rfl) (h.comp i o hc), Nat.le_refl _,
          by simpa using hf, hset o fun o' ho' => ?_, Or.inl rfl, fun _ _ _ => rfl⟩
        rw [hc] at ho'; cases ho'; rfl
    | none =>
      right
      have h1 := LawfulVM.newVar_fst vm
      have h2 : ManageVars.nUsed (ManageVars.newLit vm).2 = ManageVars.nUsed vm + 1 := LawfulVM.newVar_snd vm
      refine ⟨Out.mk (ManageVars.newLit vm).1 false false, (ManageVars.newLit vm).2,
        SInv.define D (ManageVars.nUsed vm) fun a => decide (i < wsumT (trueLits a) sins), rfl, ?_, by omega, rfl,
        hset _ fun o' ho' => (by rw [hc] at ho'; cases ho'), Or.inr ⟨rfl, rfl⟩, fun a v hv => SInv.define_old hv⟩
      refine key _ _ _ (by omega) (by rw [h2]; exact h.s.newVar _) (fun a v hv => SInv.define_old hv) ?_
      have hb : (ManageVars.newLit vm).1 = Lit.pos (ManageVars.nUsed vm) := congrArg Lit.pos h1
      refine ⟨?_, fun a => ?_, (fun _ hf => by cases hf), (fun hf => by cases hf)⟩
      · rw [h2]; simp only [hb, Lit.var_pos]; exact Or.inr ⟨h.s.le, by omega⟩
      · simp only [hb]; rw [Lit.holds_pos]; simp [SInv.define]

theorem ubLoop_spec {t : Prop} {V : Lit → Prop} {own0 : Nat → Prop} {n0 : Nat} {sins : List (Lit × Nat)} {outs : List (Option Lit)}
    {N : List Node} : ∀ (vals : List Nat) (D : Asg → Asg) (comp : List (Option Out)) (vm : VM) (cls : ClauseSet),
    LInv t V own0 n0 sins outs N .if_ D comp (ManageVars.nUsed vm) cls → (∀ v ∈ vals, v < comp.length ∧ v < 2 ^ outs.length) →
    ∃ comp' vm' new D', BinaryAdder.ubLoop outs vals comp vm cls = (comp', vm', cls ++ new) ∧
      LInv t V own0 n0 sins outs N .if_ D' comp' (ManageVars.nUsed vm') (cls ++ new) ∧
      (ManageVars.nUsed vm ≤ ManageVars.nUsed vm' ∧ ∀ a v, v < ManageVars.nUsed vm → D' a v = D a v) ∧ CompGrow comp comp' ∧
      (∀ (i : Nat) o', comp'[i]? = some (some o') → o'.encIf = true →
        i ∈ vals ∨ ∃ o, comp[i]? = some (some o) ∧ o.encIf = true) ∧
      (∀ (i : Nat) o', comp'[i]? = some (some o') → o'.encOnlyIf = true → ∃ o, comp[i]? = some (some o) ∧ o.encOnlyIf = true) ∧
      ∀ v ∈ vals, ∃ o, comp'[v]? = some (some o) ∧ o.encIf = true := by
  intro vals
  induction vals with
  | nil => intro D comp vm cls h _; exact ⟨comp, vm, [], D, by simp [BinaryAdder.ubLoop], by simpa using h, ⟨Nat.le_refl _, fun _ _ _ => rfl⟩, CompGrow.refl _,
      fun i o h1 h2 => Or.inr ⟨o, h1, h2⟩, fun i o h1 h2 => ⟨o, h1, h2⟩, by simp⟩
  | cons v vals ih =>
    intro D comp vm cls h hv
    obtain ⟨hv1, hv2⟩ := hv v (by simp)
    simp only [BinaryAdder.ubLoop]
    rcases compStep h hv1 hv2 with ⟨o, h1, h2, h3⟩ | ⟨p, vm1, D1, e, h1, hle, hp, hg, hpo, hold⟩
    · rw [h3]
      obtain ⟨comp', vm', new, D', e, a, b, c, f, g, d⟩ := ih D comp vm cls h fun x hx => hv x (by simp [hx])
      refine ⟨comp', vm', new, D', e, a, b, c, fun i o' hi hf => ?_, g, fun x hx => ?_⟩
      · rcases f i o' hi hf with h | h
        · exact Or.inl (by simp [h])
        · exact Or.inr h
      rcases List.mem_cons.1 hx with rfl | hx
      · obtain ⟨o', e1, e2, -⟩ := c.2 x o h1
        exact ⟨o', e1, e2 h2⟩
      · exact d x hx
    · rw [e]
      obtain ⟨comp', vm', new, D', e, a, b, c, f, g, d⟩ := ih D1 _ vm1 _ h1 fun x hx => by
        rw [List.length_set]; exact hv x (by simp [hx])
      refine ⟨comp', vm', comparatorIf v (p.mark .if_).bit outs ++ new, D', ?_, ?_, ⟨by omega, fun a v hv => by rw [b.2 a v (by omega), hold a v hv]⟩, hg.trans c,
        fun i o' hi hf => ?_, fun i o' hi hf => ?_, fun x hx => ?_⟩
      · rw [← List.append_assoc]; exact e
      · rw [← List.append_assoc]; exact a
      · rcases f i o' hi hf with h | ⟨o, h1, h2⟩
        · exact Or.inl (by simp [h])
        · rw [List.getElem?_set] at h1
          by_cases hij : v = i
          · exact Or.inl (by simp [hij])
          · rw [if_neg hij] at h1; exact Or.inr ⟨o, h1, h2⟩
      · obtain ⟨o, h1, h2⟩ := g i o' hi hf
        rw [List.getElem?_set] at h1
        by_cases hij : v = i
        · subst hij
          rw [if_pos rfl, if_pos hv1] at h1
          cases h1
          have h2 : p.encOnlyIf = true := h2
          rcases hpo with hpo | ⟨-, hpo⟩
          · exact ⟨p, hpo, h2⟩
          · rw [hpo] at h2; cases h2
        · rw [if_neg hij] at h1; exact ⟨o, h1, h2⟩
      · rcases List.mem_cons.1 hx with rfl | hx
        · obtain ⟨o', e1, e2, -⟩ := c.2 x (p.mark .if_) (by simp [hv1])
          exact ⟨o', e1, e2 rfl⟩
        · exact d x hx

theorem lbLoop_spec {t : Prop} {V : Lit → Prop} {own0 : Nat → Prop} {n0 : Nat} {sins : List (Lit × Nat)} {outs : List (Option Lit)}
    {N : List Node} : ∀ (vals : List Nat) (D : Asg → Asg) (comp : List (Option Out)) (vm : VM) (cls : ClauseSet),
    LInv t V own0 n0 sins outs N .onlyIf D comp (ManageVars.nUsed vm) cls →
    (∀ v ∈ vals, v - 1 < comp.length ∧ v - 1 < 2 ^ outs.length) →
    ∃ comp' vm' new D', BinaryAdder.lbLoop outs vals comp vm cls = (comp', vm', cls ++ new) ∧
      LInv t V own0 n0 sins outs N .onlyIf D' comp' (ManageVars.nUsed vm') (cls ++ new) ∧
      (ManageVars.nUsed vm ≤ ManageVars.nUsed vm' ∧ ∀ a v, v < ManageVars.nUsed vm → D' a v = D a v) ∧ CompGrow comp comp' ∧
      (∀ (i : Nat) o', comp'[i]? = some (some o') → o'.encIf = true → ∃ o, comp[i]? = some (some o) ∧ o.encIf = true) ∧
      (∀ (i : Nat) o', comp'[i]? = some (some o') → o'.encOnlyIf = true →
        (∃ v ∈ vals, v - 1 = i ∧ ¬ ∃ o, comp[i]? = some (some o) ∧ o.encIf = true) ∨
        ∃ o, comp[i]? = some (some o) ∧ o.encOnlyIf = true) ∧
      ∀ v ∈ vals, (∃ o, comp'[v - 1]? = some (some o) ∧ o.encOnlyIf = true) ∨
        ∃ o, comp[v - 1]? = some (some o) ∧ o.encIf = true := by
  intro vals
  induction vals with
  | nil =>
    intro D comp vm cls h _
    exact ⟨comp, vm, [], D, by simp [BinaryAdder.lbLoop], by simpa using h, ⟨Nat.le_refl _, fun _ _ _ => rfl⟩, CompGrow.refl _,
      fun i o h1 h2 => ⟨o, h1, h2⟩, fun i o h1 h2 => Or.inr ⟨o, h1, h2⟩, by simp⟩
  | cons v vals ih =>
    intro D comp vm cls h hv
    obtain ⟨hv1, hv2⟩ := hv v (by simp)
    simp only [BinaryAdder.lbLoop]
    rcases compStep h hv1 hv2 with ⟨o, h1, h2, h3⟩ | ⟨p, vm1, D1, e, h1, hle, hp, hg, hpo, hold⟩
    · rw [h3]
      obtain ⟨comp', vm', new, D', e, a, b, c, d, g, f⟩ := ih D comp vm cls h fun x hx => hv x (by simp [hx])
      refine ⟨comp', vm', new, D', e, a, b, c, d, fun i o' hi hf => ?_, fun x hx => ?_⟩
      · rcases g i o' hi hf with ⟨x, hx, h⟩ | h
        · exact Or.inl ⟨x, by simp [hx], h⟩
        · exact Or.inr h
      rcases List.mem_cons.1 hx with rfl | hx
      · exact Or.inr ⟨o, h1, h2⟩
      · exact f x hx
    · rw [e]
      obtain ⟨comp', vm', new, D', e, a, b, c, d, g, f⟩ := ih D1 _ vm1 _ h1 fun x hx => by
        rw [List.length_set]; exact hv x (by simp [hx])
      have hno : ¬ ∃ o, comp[v - 1]? = some (some o) ∧ o.encIf = true := by
        rintro ⟨o, h1, h2⟩
        rcases hpo with hpo | ⟨hpo, -⟩
        · rw [hpo] at h1; cases h1; rw [hp] at h2; cases h2
        · rw [hpo] at h1; cases h1
      have hback : ∀ (i : Nat) o, (comp.set (v - 1) (some (p.mark .onlyIf)))[i]? = some (some o) → o.encIf = true →
          ∃ o, comp[i]? = some (some o) ∧ o.encIf = true := by
        intro i o hi hf
        rw [List.getElem?_set] at hi
        by_cases hij : v - 1 = i
        · subst hij
          rw [if_pos rfl, if_pos hv1] at hi
          cases hi
          rw [show (p.mark .onlyIf).encIf = p.encIf from rfl, hp] at hf; cases hf
        · rw [if_neg hij] at hi; exact ⟨o, hi, hf⟩
      refine ⟨comp', vm', comparatorOnlyIf (v - 1) (p.mark .onlyIf).bit outs ++ new, D', ?_, ?_, ⟨by omega, fun a v hv => by rw [b.2 a v (by omega), hold a v hv]⟩, hg.trans c, ?_,
        fun i o' hi hf => ?_, fun x hx => ?_⟩
      · rw [← List.append_assoc]; exact e
      · rw [← List.append_assoc]; exact a
      · intro i o' hi hf
        obtain ⟨o, h1, h2⟩ := d i o' hi hf
        exact hback i o h1 h2
      · by_cases hij : v - 1 = i
        · exact Or.inl ⟨v, by simp, hij, by rw [← hij]; exact hno⟩
        · rcases g i o' hi hf with ⟨x, hx, h2, h3⟩ | ⟨o, h1, h2⟩
          · refine Or.inl ⟨x, by simp [hx], h2, ?_⟩
            rwa [List.getElem?_set, if_neg hij] at h3
          · rw [List.getElem?_set, if_neg hij] at h1
            exact Or.inr ⟨o, h1, h2⟩
      · rcases List.mem_cons.1 hx with rfl | hx
        · obtain ⟨o', e1, -, e2⟩ := c.2 (x - 1) (p.mark .onlyIf) (by simp [hv1])
          exact Or.inl ⟨o', e1, e2 rfl⟩
        · rcases f x hx with h | ⟨o, h1, h2⟩
          · exact Or.inl h
          · exact Or.inr (hback _ o h1 h2)

end

theorem SInv.rebase {V : Lit → Prop} {own0 own' : Nat → Prop} {n0 n n' : Nat} {D : Asg → Asg} {N : List Node}
    {cls : ClauseSet} (h : SInv V own0 n0 D N n cls) (ho : ∀ v, own' v ↔ Own own0 n0 n v) (hn : n ≤ n') :
    SInv V own' n' D N n' cls := by
  have key : ∀ v, Own own0 n0 n v → Own own' n' n' v := fun v hv => Or.inl ((ho v).2 hv)
  refine ⟨Nat.le_refl _, fun v hv => Nat.lt_of_lt_of_le (h.lt ((ho v).1 hv)) hn, fun l hl => ?_, fun a v hv => ?_, h.sat,
    fun c o hc => ⟨key _ (h.bit c o hc).1, (h.bit c o hc).2⟩, fun k hk l hl => ?_, h.shape⟩
  · obtain ⟨h1, h2⟩ := h.inLt l hl
    have := h.le
    refine ⟨by omega, fun hv => ?_⟩
    rcases (ho _).1 hv with h3 | h3
    · exact h2 h3
    · omega
  · exact h.agree a v fun hc => hv (key v hc)
  · rcases h.vars k hk l hl with h1 | h1
    · exact Or.inl h1
    · exact Or.inr (key _ h1)

theorem SInv.moreInputs {V W : Lit → Prop} {own0 : Nat → Prop} {n0 n : Nat} {D : Asg → Asg} {N : List Node}
    {cls : ClauseSet} (h : SInv V own0 n0 D N n cls) (hV : ∀ l, V l → W l) (hW : ∀ l, W l → l.var < n0 ∧ ¬ own0 l.var) :
    SInv W own0 n0 D N n cls := by
  refine ⟨h.le, h.ownLt, hW, h.agree, h.sat, h.bit, fun k hk l hl => ?_, h.shape.mono hV⟩
  rcases h.vars k hk l hl with ⟨x, h1, h2⟩ | h1
  · exact Or.inl ⟨x, hV x h1, h2⟩
  · exact Or.inr h1

end Adder

namespace BinaryAdder
open Adder

/-- The literals of the inputs. -/
abbrev inLit (ins : List (Lit × Nat)) (l : Lit) : Prop := ∃ x ∈ ins, x.1 = l

/-- The structure is right for the inputs `sins`. -/
def StrOk (t : Prop) (e : BinaryAdder) (cls : ClauseSet) (ins : List (Lit × Nat)) (own : List Nat) (sins : List (Lit × Nat))
    (cols : List Nat) (D : Asg → Asg) : Prop :=
  match e.structure_ with
  | none => e.nodes = [] ∧ sins = []
  | some st => Balanced st.outputs (shape e.nodes) cols sins ∧
      (∀ c, some c ∈ st.outputs → c.good (inLit ins) e.nodes.length) ∧
      ∀ (i : Nat) o, st.comparator[i]? = some (some o) → CompAt t (· ∈ own) sins D cls i o

/-- The invariant of the encoder, where `sins` are the inputs that are part of the structure; `t`: upper bounds are right. -/
structure InvWith (t : Prop) (e : BinaryAdder) (n : Nat) (cls : ClauseSet) (ins : List (Lit × Nat)) (own : List Nat)
    (sins : List (Lit × Nat)) (cols : List Nat) (D : Asg → Asg) : Prop where
  sum : ∀ T, wsumT T sins + wsumT T e.litBuffer = wsumT T ins
  ws : e.weightSum_ = wsumT (fun _ => true) sins
  sub : ∀ x ∈ sins, inLit ins x.1
  buf : ∀ x ∈ e.litBuffer, inLit ins x.1
  s : SInv (inLit ins) (· ∈ own) n D e.nodes n cls
  only : ∀ c, OnlyAt e.nodes cls c
  str : StrOk t e cls ins own sins cols D

/-- The invariant of the encoder. -/
def Inv (t : Prop) (e : BinaryAdder) (n : Nat) (cls : ClauseSet) (ins : List (Lit × Nat)) (own : List Nat) : Prop :=
  ∃ sins cols D, InvWith t e n cls ins own sins cols D

/-- The flags for the if direction are right. -/
def Clean (e : BinaryAdder) (cls : ClauseSet) : Prop := ∀ c, IfAt e.nodes cls c

/-- The upper bound is marked as encoded. -/
def HasUb (e : BinaryAdder) (b : Nat) : Prop :=
  ∃ st o, e.structure_ = some st ∧ st.comparator[b]? = some (some o) ∧ o.encIf = true

/-- The lower bound is marked as encoded. -/
def HasLb (e : BinaryAdder) (b : Nat) : Prop :=
  ∃ st o, e.structure_ = some st ∧ st.comparator[b - 1]? = some (some o) ∧ o.encOnlyIf = true

variable {t : Prop} {e : BinaryAdder} {n : Nat} {cls : ClauseSet} {ins : List (Lit × Nat)} {own : List Nat} {sins : List (Lit × Nat)}
  {cols : List Nat} {D : Asg → Asg}

theorem total_eq (m : LitMap) : m.total = wsumT (fun _ => true) m := by
  unfold LitMap.total wsumT; simp

theorem InvWith.weightSum (h : InvWith t e n cls ins own sins cols D) : e.weightSum = wsumT (fun _ => true) ins := by
  unfold BinaryAdder.weightSum
  rw [h.ws, total_eq, h.sum]

theorem Inv.weightSum (h : Inv t e n cls ins own) : e.weightSum = wsumT (fun _ => true) ins := by
  obtain ⟨_, _, _, h⟩ := h
  exact h.weightSum

theorem out_nil (c : Con) : out [] c = none := by cases c <;> rfl

theorem InvWith.new {lits : List (Lit × Nat)} (hn : (lits.map (·.1)).Nodup) {n : Nat} (hl : ∀ x ∈ lits, x.1.var < n) :
    InvWith t (BinaryAdder.new lits) n [] lits [] [] [] id := by
  have hb : (BinaryAdder.new lits).litBuffer = lits := LitMap.ofList_nodup lits hn
  refine ⟨fun T => ?_, rfl, by simp, fun x hx => ?_, ?_, fun c o ho => ?_, ⟨rfl, rfl⟩⟩
  · rw [hb]; simp [wsumT]
  · rw [hb] at hx; exact ⟨x, hx, rfl⟩
  · refine ⟨Nat.le_refl _, by simp, ?_, fun _ _ _ => rfl, fun a c hc => (by cases hc), fun c o ho => ?_, by simp, ?_⟩
    · rintro l ⟨x, hx, rfl⟩; exact ⟨hl x hx, by simp⟩
    · rw [show (BinaryAdder.new lits).nodes = [] from rfl, out_nil] at ho; cases ho
    · intro j c hj; simp [BinaryAdder.new, Adder.shape] at hj
  · rw [show (BinaryAdder.new lits).nodes = [] from rfl, out_nil] at ho; cases ho

theorem Inv.new {lits : List (Lit × Nat)} (hn : (lits.map (·.1)).Nodup) {n : Nat} (hl : ∀ x ∈ lits, x.1.var < n) :
    Inv t (BinaryAdder.new lits) n [] lits [] := ⟨_, _, _, InvWith.new hn hl⟩

theorem Clean.new (lits : List (Lit × Nat)) (cls : ClauseSet) : (BinaryAdder.new lits).Clean cls := by
  intro c o ho
  rw [show (BinaryAdder.new lits).nodes = [] from rfl, out_nil] at ho; cases ho

theorem StrOk.moreInputs {ins2 : List (Lit × Nat)} (h : StrOk t e cls ins own sins cols D) (hi : ∀ l, inLit ins l → inLit ins2 l) :
    StrOk t e cls ins2 own sins cols D := by
  unfold StrOk at h ⊢
  cases hs : e.structure_ with
  | none => rw [hs] at h; exact h
  | some st =>
    rw [hs] at h
    exact ⟨h.1, fun c hc => (h.2.1 c hc).mono hi (Nat.le_refl _), h.2.2⟩

theorem InvWith.extend (h : InvWith t e n cls ins own sins cols D) {lits : List (Lit × Nat)}
    (hl : ∀ x ∈ lits, x.1.var < n ∧ x.1.var ∉ own) : InvWith t (e.extend lits) n cls (ins ++ lits) own sins cols D := by
  have hin : ∀ l, inLit ins l → inLit (ins ++ lits) l := fun l ⟨x, hx, hxl⟩ => ⟨x, by simp [hx], hxl⟩
  refine ⟨fun T => ?_, h.ws, fun x hx => hin _ (h.sub x hx), fun x hx => ?_, ?_, h.only, h.str.moreInputs hin⟩
  · have := h.sum T
    show wsumT T sins + wsumT T (lits.foldl LitMap.addLit e.litBuffer) = _
    rw [LitMap.addLits_sum, wsumT_append]; omega
  · rcases LitMap.addLits_mem lits e.litBuffer x hx with hy | ⟨y, hy, e1, -⟩
    · exact hin _ (h.buf x hy)
    · rw [e1]; exact ⟨y, by simp [hy], rfl⟩
  · refine h.s.moreInputs hin ?_
    rintro l ⟨x, hx, rfl⟩
    rcases List.mem_append.1 hx with hx | hx
    · exact h.s.inLt _ ⟨x, hx, rfl⟩
    · exact hl x hx

theorem Inv.extend (h : Inv t e n cls ins own) {lits : List (Lit × Nat)} (hl : ∀ x ∈ lits, x.1.var < n ∧ x.1.var ∉ own) :
    Inv t (e.extend lits) n cls (ins ++ lits) own := by
  obtain ⟨_, _, _, h⟩ := h
  exact ⟨_, _, _, h.extend hl⟩

theorem InvWith.rehash (h : InvWith t e n cls ins own sins cols D) {b : LitMap} (hb : b.Perm e.litBuffer) :
    InvWith t { e with litBuffer := b } n cls ins own sins cols D := by
  refine ⟨fun T => ?_, h.ws, h.sub, fun x hx => h.buf x (hb.mem_iff.1 hx), h.s, h.only, h.str⟩
  rw [← h.sum T, ← wsumT_perm T hb]

theorem Inv.rehash (h : Inv t e n cls ins own) {b : LitMap} (hb : b.Perm e.litBuffer) : Inv t { e with litBuffer := b } n cls ins own := by
  obtain ⟨_, _, _, h⟩ := h
  exact ⟨_, _, _, h.rehash hb⟩

theorem InvWith.more (h : InvWith t e n cls ins own sins cols D) {n' : Nat} (hn : n ≤ n') :
    InvWith t e n' cls ins own sins cols D := by
  refine ⟨h.sum, h.ws, h.sub, h.buf, h.s.rebase (fun v => ⟨Or.inl, fun hv => ?_⟩) hn, h.only, h.str⟩
  rcases hv with h1 | h1
  · exact h1
  · omega

theorem Inv.more (h : Inv t e n cls ins own) {n' : Nat} (hn : n ≤ n') : Inv t e n' cls ins own := by
  obtain ⟨_, _, _, h⟩ := h
  exact ⟨_, _, _, h.more hn⟩

/-! ### Resetting the flags -/

theorem out_reset (e : BinaryAdder) (c : Con) : out e.reset.nodes c = (out e.nodes c).map fun o => ⟨o.bit, false, false⟩ := by
  cases c with
  | input l => rfl
  | sum j =>
    simp only [out, reset, List.getElem?_map]
    cases e.nodes[j]? with
    | none => rfl
    | some nd => rfl
  | carry j =>
    simp only [out, reset, List.getElem?_map]
    cases e.nodes[j]? with
    | none => rfl
    | some nd => rfl

theorem shape_reset (e : BinaryAdder) : shape e.reset.nodes = shape e.nodes := by
  unfold shape reset; simp

theorem Clean.reset (e : BinaryAdder) (cls : ClauseSet) : e.reset.Clean cls := by
  intro c o ho hf
  rw [out_reset] at ho
  obtain ⟨o', -, rfl⟩ := Option.map_eq_some_iff.1 ho
  cases hf

theorem InvWith.reset (h : InvWith t e n cls ins own sins cols D) : InvWith t e.reset n cls ins own sins cols D := by
  refine ⟨h.sum, h.ws, h.sub, h.buf, ⟨h.s.le, h.s.ownLt, h.s.inLt, h.s.agree, h.s.sat, fun c o ho => ?_, h.s.vars,
    by rw [shape_reset]; exact h.s.shape⟩, fun c o ho hf => ?_, ?_⟩
  · rw [out_reset] at ho
    obtain ⟨o', h1, rfl⟩ := Option.map_eq_some_iff.1 ho
    rw [shape_reset]; exact h.s.bit c o' h1
  · rw [out_reset] at ho
    obtain ⟨o', -, rfl⟩ := Option.map_eq_some_iff.1 ho
    cases hf
  · have := h.str
    unfold StrOk at this ⊢
    show match e.structure_ with | none => _ | some st => _
    cases hs : e.structure_ with
    | none => rw [hs] at this; exact ⟨by simp [BinaryAdder.reset, this.1], this.2⟩
    | some st =>
      rw [hs] at this
      refine ⟨by rw [shape_reset]; exact this.1, fun c hc => ?_, this.2.2⟩
      have := this.2.1 c hc
      simpa [BinaryAdder.reset] using this

theorem Inv.reset (h : Inv t e n cls ins own) : Inv t e.reset n cls ins own := by
  obtain ⟨_, _, _, h⟩ := h
  exact ⟨_, _, _, h.reset⟩

/-! ### Extending the structure -/

theorem out_append {N news : List Node} (hn : ∀ nd ∈ news, nd.sum = none ∧ nd.carry = none) (c : Con) :
    out (N ++ news) c = out N c := by
  have key : ∀ j, N.length ≤ j → ∀ nd, (N ++ news)[j]? = some nd → nd.sum = none ∧ nd.carry = none := by
    intro j hj nd h
    rw [List.getElem?_append_right hj] at h
    exact hn nd (List.mem_of_getElem? h)
  cases c with
  | input l => rfl
  | sum j =>
    simp only [out]
    by_cases hj : j < N.length
    · rw [List.getElem?_append_left hj]
    · rw [List.getElem?_eq_none (by omega : N.length ≤ j)]
      cases h : (N ++ news)[j]? with
      | none => rfl
      | some nd => simp [(key j (by omega) nd h).1]
  | carry j =>
    simp only [out]
    by_cases hj : j < N.length
    · rw [List.getElem?_append_left hj]
    · rw [List.getElem?_eq_none (by omega : N.length ≤ j)]
      cases h : (N ++ news)[j]? with
      | none => rfl
      | some nd => simp [(key j (by omega) nd h).2]

theorem litOf_append {N news : List Node} (hn : ∀ nd ∈ news, nd.sum = none ∧ nd.carry = none) (c : Con) :
    litOf (N ++ news) c = litOf N c := by
  cases c with
  | input l => rfl
  | sum j => simp only [litOf]; rw [out_append hn]
  | carry j => simp only [litOf]; rw [out_append hn]

theorem out_lt {N : List Node} {c : Con} {o : Out} (h : out N c = some o) : ∃ j, (c = .sum j ∨ c = .carry j) ∧ j < N.length := by
  cases c with
  | input l => cases h
  | sum j =>
    refine ⟨j, Or.inl rfl, ?_⟩
    apply Classical.byContradiction
    intro hn
    rw [out, List.getElem?_eq_none (by omega)] at h; cases h
  | carry j =>
    refine ⟨j, Or.inr rfl, ?_⟩
    apply Classical.byContradiction
    intro hn
    rw [out, List.getElem?_eq_none (by omega)] at h; cases h

theorem insAt_append {N news : List Node} {c : Con} {o : Out} (h : out N c = some o) :
    insAt (shape (N ++ news)) c = insAt (shape N) c := by
  obtain ⟨j, hc, hj⟩ := out_lt h
  have : (shape (N ++ news))[j]? = (shape N)[j]? := by
    unfold shape; rw [List.map_append, List.getElem?_append_left (by simpa using hj)]
  rcases hc with rfl | rfl <;> simp only [insAt] <;> rw [this]

theorem emitted_append {m : Mode} {N news : List Node} (hn : ∀ nd ∈ news, nd.sum = none ∧ nd.carry = none) {cls : ClauseSet}
    {c : Con} (h : Emitted m N cls c) : Emitted m (N ++ news) cls c := by
  obtain ⟨o, ls, h1, h2, h3⟩ := h
  refine ⟨o, ls, by rw [out_append hn]; exact h1, ?_, h3⟩
  rw [insAt_append h1]
  rw [← h2]
  exact List.map_congr_left fun x _ => litOf_append hn x

theorem hasIf_append {N news : List Node} (hn : ∀ nd ∈ news, nd.sum = none ∧ nd.carry = none) {c : Con} (h : HasIf N c) :
    HasIf (N ++ news) c := by
  cases c with
  | input l => trivial
  | sum j => obtain ⟨o, h1, h2⟩ := h; exact ⟨o, by rw [out_append hn]; exact h1, h2⟩
  | carry j => obtain ⟨o, h1, h2⟩ := h; exact ⟨o, by rw [out_append hn]; exact h1, h2⟩

theorem hasOnly_append {N news : List Node} (hn : ∀ nd ∈ news, nd.sum = none ∧ nd.carry = none) {cls : ClauseSet} {c : Con}
    (h : HasOnly N cls c) : HasOnly (N ++ news) cls c := by
  cases c with
  | input l => trivial
  | sum j => obtain ⟨o, h1, h2⟩ := h; exact ⟨o, by rw [out_append hn]; exact h1, h2⟩
  | carry j => exact emitted_append hn h

theorem InvWith.extendStructure (h : InvWith t e n cls ins own sins cols D) : ∃ sins' cols',
    InvWith t e.extendStructure n cls ins own sins' cols' D ∧ e.extendStructure.litBuffer = [] ∧
      (e.Clean cls → e.extendStructure.Clean cls) ∧ e.extendStructure.weightSum = e.weightSum ∧
      e.extendStructure.nVars = e.nVars ∧ e.extendStructure.nClauses = e.nClauses ∧
      ((e.litBuffer = [] ∧ e.extendStructure = e) ∨
        (e.litBuffer ≠ [] ∧ ∃ st, e.extendStructure.structure_ = some st ∧ st.comparator = [])) := by
  by_cases hb : e.litBuffer = []
  · have he : e.extendStructure = e := by unfold BinaryAdder.extendStructure; simp [hb]
    rw [he]
    exact ⟨sins, cols, h, hb, id, rfl, rfl, rfl, Or.inl ⟨hb, rfl⟩⟩
  · -- the buckets
    have hbs : ∃ bs : List (List Con), e.extendStructure = (let (outputs, nodes) := build (size bs) bs e.nodes
        { e with litBuffer := [], structure_ := some ⟨outputs, []⟩, weightSum_ := e.weightSum_ + e.litBuffer.total,
                 nodes := nodes }) ∧ (∀ b ∈ bs, ∀ x ∈ b, x.good (inLit ins) e.nodes.length) ∧
        ∀ v, bval v 0 bs = inval v e.litBuffer + match e.structure_ with
          | none => 0
          | some s => bval v 0 (s.outputs.map Option.toList) := by
      have h1 : ∀ b ∈ e.litBuffer.foldl addInput [], ∀ x ∈ b, x.good (inLit ins) e.nodes.length :=
        addInputs_good _ _ h.buf (by simp)
      have h2 : ∀ v, bval v 0 (e.litBuffer.foldl addInput []) = inval v e.litBuffer := by
        intro v; rw [addInputs_val]; simp [bval]
      have hstr := h.str
      unfold StrOk at hstr
      cases hs : e.structure_ with
      | none =>
        refine ⟨e.litBuffer.foldl addInput [], by unfold BinaryAdder.extendStructure; simp [hb, hs], h1, fun v => by simp [h2]⟩
      | some st =>
        rw [hs] at hstr
        refine ⟨addOutputs (pad (e.litBuffer.foldl addInput []) st.outputs.length) st.outputs,
          by unfold BinaryAdder.extendStructure; simp [hb, hs], ?_, fun v => ?_⟩
        · exact addOutputs_good _ _ (pad_good h1) hstr.2.1
        · rw [addOutputs_val _ _ _ _ (pad_length _ _).1, pad_val, h2]
    obtain ⟨bs, he, hgood, hval⟩ := hbs
    obtain ⟨os, news, cols2, hb2, hlen, built, hbal⟩ := build_spec (inLit ins) (size bs) 0 bs e.nodes (Nat.le_refl _) hgood
    rw [hb2] at he
    simp only at he
    have hclear := built.clear
    have hsh : shape (e.nodes ++ news) = shape e.nodes ++ shape news := by simp [shape]
    have hlsh : (shape e.nodes).length = e.nodes.length := by simp [shape]
    have hsOK : ShapeOK (inLit ins) 0 (shape (e.nodes ++ news)) := by
      rw [hsh]
      refine h.s.shape.append ?_
      rw [hlsh, Nat.zero_add]; exact built.shape
    have hcols : cols.length = e.nodes.length ∨ e.structure_ = none := by
      have hstr := h.str
      unfold StrOk at hstr
      cases hs : e.structure_ with
      | none => exact Or.inr rfl
      | some st => rw [hs] at hstr; exact Or.inl (by rw [hstr.1.1, hlsh])
    rw [he]
    refine ⟨sins ++ e.litBuffer, (if e.structure_.isSome then cols else []) ++ cols2, ⟨fun T => ?_, ?_, ?_, by simp, ?_, ?_, ?_⟩, rfl, ?_, ?_,
      rfl, rfl, Or.inr ⟨hb, _, rfl, rfl⟩⟩
    · rw [wsumT_append, ← h.sum T]; simp [wsumT]
    · show e.weightSum_ + e.litBuffer.total = _
      rw [wsumT_append, h.ws, total_eq]
    · intro x hx
      rcases List.mem_append.1 hx with hx | hx
      · exact h.sub x hx
      · exact h.buf x hx
    · refine ⟨h.s.le, h.s.ownLt, h.s.inLt, h.s.agree, h.s.sat, fun c o ho => ?_, h.s.vars, hsOK⟩
      have ho' : out e.nodes c = some o := by rw [← out_append hclear c]; exact ho
      refine ⟨(h.s.bit c o ho').1, fun a => ?_⟩
      rw [(h.s.bit c o ho').2 a]
      show _ = eval (shape (e.nodes ++ news)) _ c
      rw [hsh]
      refine (eval_append h.s.shape _ _ ?_).symm
      obtain ⟨j, hc, hj⟩ := out_lt ho'
      rcases hc with rfl | rfl <;> simpa [Con.good, hlsh] using hj
    · intro c o ho hf
      have ho' : out e.nodes c = some o := by rw [← out_append hclear c]; exact ho
      obtain ⟨h1, h2⟩ := h.only c o ho' hf
      refine ⟨emitted_append hclear h1, fun j hj x hx => hasOnly_append hclear (h2 j hj x ?_)⟩
      rw [← insAt_append ho']; exact hx
    · refine ⟨⟨?_, fun v => ?_⟩, fun c hc => ?_, fun i o hi => by simp at hi⟩
      · rcases hcols with hc | hc
        · by_cases hs : e.structure_.isSome
          · simp [hs, hc, shape, hlen]
          · have : e.structure_ = none := by simpa using hs
            have hstr := h.str
            unfold StrOk at hstr
            rw [this] at hstr
            simp [hs, shape, hlen, hstr.1]
        · have hstr := h.str
          unfold StrOk at hstr
          rw [hc] at hstr
          simp [hc, shape, hlen, hstr.1]
      · show bval v 0 (os.map Option.toList) + lhs v (shape (e.nodes ++ news)) _ = _
        have h1 := hbal v
        have h2 := hval v
        have h3 : inval v (sins ++ e.litBuffer) = inval v sins + inval v e.litBuffer := by simp [inval]
        rw [hsh, h3]
        have hstr := h.str
        unfold StrOk at hstr
        cases hs : e.structure_ with
        | none =>
          rw [hs] at hstr h2
          simp only [Option.isSome_none, Bool.false_eq_true, if_false, List.nil_append]
          have e0 : e.nodes.length = 0 := by rw [hstr.1]; rfl
          have e2 : inval v sins = 0 := by rw [hstr.2]; rfl
          have e3 : shape e.nodes ++ shape news = shape news := by rw [hstr.1]; rfl
          have h1' : bval v 0 (os.map Option.toList) + lhs v (shape news) cols2 = bval v 0 bs + rhs v e.nodes.length cols2 := h1
          have h2' : bval v 0 bs = inval v e.litBuffer := h2.trans (Nat.add_zero _)
          rw [e0] at h1'
          rw [e2, e3]
          omega
        | some st =>
          rw [hs] at hstr h2
          have h4 := hstr.1.2 v
          simp only [Option.isSome_some, if_true]
          rw [lhs_append v (by rw [hstr.1.1]), rhs_append, hstr.1.1, hlsh, Nat.zero_add]
          simp only at h2
          have h1' : bval v 0 (os.map Option.toList) + lhs v (shape news) cols2 = bval v 0 bs + rhs v e.nodes.length cols2 := h1
          omega
      · have := built.good c hc
        simpa using this
    · intro hcl c o ho hf
      have ho' : out e.nodes c = some o := by rw [← out_append hclear c]; exact ho
      obtain ⟨h1, h2⟩ := hcl c o ho' hf
      refine ⟨emitted_append hclear h1, fun x hx => hasIf_append hclear (h2 x ?_)⟩
      rw [← insAt_append ho']; exact hx
    · simp [BinaryAdder.weightSum, LitMap.total]

/-! ### Encoding -/

/-- What an encoding call does. -/
structure Changed {VM : Type} [ManageVars VM] (t : Prop) (m : Mode) (e : BinaryAdder) (r : Nat × Nat) (vm : VM) (cls : ClauseSet)
    (ins : List (Lit × Nat)) (own : List Nat) (e' : BinaryAdder) (vm' : VM) (new : ClauseSet) : Prop where
  inv : Inv t e' (ManageVars.nUsed vm') (cls ++ new) ins (own ++ CardWorld.handedOut vm vm')
  le : ManageVars.nUsed vm ≤ ManageVars.nUsed vm'
  clean : m = .if_ → t → e'.Clean (cls ++ new)
  nv : e'.nVars = e.nVars + (ManageVars.nUsed vm' - ManageVars.nUsed vm)
  nc : e'.nClauses = e.nClauses + new.length
  buf : r.1 < r.2 → e'.litBuffer = []
  same : ¬ r.1 < r.2 → e' = e
  keepUb : e.litBuffer = [] → ∀ b, e.HasUb b → e'.HasUb b
  keepLb : e.litBuffer = [] → ∀ b, e.HasLb b → e'.HasLb b
  ub : m = .if_ → ∀ b, r.1 ≤ b → b < r.2 → e'.HasUb b
  lb : m = .onlyIf → ∀ b, r.1 ≤ b → b < r.2 → e'.HasLb b ∨ (e.litBuffer = [] ∧ e.HasUb (b - 1))
  fromUb : e'.litBuffer = [] → ∀ b, e'.HasUb b → (m = .if_ ∧ r.1 ≤ b ∧ b < r.2) ∨ (e.litBuffer = [] ∧ e.HasUb b)
  fromLb : e'.litBuffer = [] → ∀ b, 1 ≤ b → e'.HasLb b →
    (m = .onlyIf ∧ r.1 ≤ b ∧ b < r.2 ∧ (e.litBuffer = [] → ¬ e.HasUb (b - 1))) ∨ (e.litBuffer = [] ∧ e.HasLb b)

theorem resize_get {comp : List (Option Out)} {n i : Nat} {o : Out} :
    (resize comp n)[i]? = some (some o) ↔ comp[i]? = some (some o) := by
  unfold resize
  by_cases h : i < comp.length
  · rw [List.getElem?_append_left h]
  · rw [List.getElem?_append_right (by omega), List.getElem?_replicate, List.getElem?_eq_none (by omega : comp.length ≤ i)]
    by_cases h2 : i - comp.length < n - comp.length <;> simp [h2]

theorem resize_length (comp : List (Option Out)) (n : Nat) : n ≤ (resize comp n).length := by
  unfold resize; simp; omega

/-- The canonical extension of assignments after a call agrees with that before on the variables that existed before. -/
def Tracked (t : Prop) (n : Nat) (D : Asg → Asg) (e' : BinaryAdder) (n' : Nat) (cls : ClauseSet) (ins : List (Lit × Nat))
    (own : List Nat) : Prop :=
  ∃ sins cols D', InvWith t e' n' cls ins own sins cols D' ∧ ∀ a v, v < n → D' a v = D a v

theorem InvWith.encodeChange {VM : Type} [ManageVars VM] [LawfulVM VM] {vm : VM} {sins0 : List (Lit × Nat)} {cols0 : List Nat}
    {D : Asg → Asg} (h0 : InvWith t e (ManageVars.nUsed vm) cls ins own sins0 cols0 D)
    (m : Mode) (hc : m = .if_ → t → e.Clean cls) (r : Nat × Nat)
    (hr : ∀ v, r.1 ≤ v → v < r.2 → match m with | .if_ => v < e.weightSum | .onlyIf => 1 ≤ v ∧ v ≤ e.weightSum)
    (col : ClauseSet) : ∃ e' vm' new, e.encodeChange m r vm col = some (e', vm', col ++ new) ∧
      Changed t m e r vm cls ins own e' vm' new ∧
      Tracked t (ManageVars.nUsed vm) D e' (ManageVars.nUsed vm') (cls ++ new) ins (own ++ CardWorld.handedOut vm vm') := by
  have h : Inv t e (ManageVars.nUsed vm) cls ins own := ⟨_, _, _, h0⟩
  suffices hs : ∃ e' vm' new, e.encodeChange m r vm cls = some (e', vm', cls ++ new) ∧
      Changed t m e r vm cls ins own e' vm' new ∧
      Tracked t (ManageVars.nUsed vm) D e' (ManageVars.nUsed vm') (cls ++ new) ins (own ++ CardWorld.handedOut vm vm') by
    obtain ⟨e', vm', new, h1, h2⟩ := hs
    refine ⟨e', vm', new, ?_, h2⟩
    rw [encodeChange_pre] at h1 ⊢
    obtain ⟨x, h3, h4⟩ := Option.map_eq_some_iff.1 h1
    rw [h3]
    obtain ⟨a, b, c⟩ := x
    simp only [Prod.mk.injEq, List.append_cancel_left_eq] at h4
    simp [h4]
  by_cases hlt : r.2 ≤ r.1
  · refine ⟨e, vm, [], by simp [BinaryAdder.encodeChange, hlt], ?_,
      ⟨_, _, D, by simpa [CardWorld.handedOut] using h0, fun _ _ _ => rfl⟩⟩
    exact ⟨by simpa [CardWorld.handedOut] using h, Nat.le_refl _, fun hm ht => by simpa using hc hm ht, by simp, by simp,
      fun h => absurd h (by omega), fun _ => rfl, fun _ _ h => h, fun _ _ h => h, fun _ b h1 h2 => absurd h2 (by omega),
      fun _ b h1 h2 => absurd h2 (by omega), fun hb _ h => Or.inr ⟨hb, h⟩, fun hb _ _ h => Or.inr ⟨hb, h⟩⟩
  · obtain ⟨sins, cols, h1, hbuf, hcl, hws, hnv, hnc, hext⟩ := h0.extendStructure
    have hwsum : e.weightSum = wsumT (fun _ => true) sins := by
      rw [← hws]; unfold BinaryAdder.weightSum; rw [h1.ws, hbuf]; simp [LitMap.total]
    have hkeep : e.litBuffer = [] → e.extendStructure = e := by
      intro hb
      rcases hext with h | h
      · exact h.2
      · exact absurd hb h.1
    have hstr := h1.str
    unfold StrOk at hstr
    cases hs : e.extendStructure.structure_ with
    | none =>
      rw [hs] at hstr
      exfalso
      have := hr r.1 (Nat.le_refl _) (by omega)
      rw [hwsum, hstr.2] at this
      cases m with
      | if_ => simp [wsumT] at this
      | onlyIf => simp only [wsumT, List.map_nil, List.sum_nil] at this; omega
    | some st =>
      rw [hs] at hstr
      obtain ⟨hbal, hgood, hcomp⟩ := hstr
      obtain ⟨outs, D1, s1, e1, step, hls, hex, hready⟩ := outputBits_spec m e.extendStructure.nodes.length st.outputs hgood D
        (⟨e.extendStructure.nodes, vm, cls⟩ : St VM) h1.s rfl
      have hsh : shape s1.nodes = shape e.extendStructure.nodes := step.grow.shape
      have hlen1 : s1.nodes.length = e.extendStructure.nodes.length := step.grow.length
      obtain ⟨new1, hnew1⟩ := step.new
      simp only at hnew1
      have hbal1 : Balanced st.outputs (shape s1.nodes) cols sins := by rw [hsh]; exact hbal
      have hall : ∀ x : Con, ¬ x.good (fun _ => True) e.extendStructure.nodes.length → out s1.nodes x = none := by
        intro x hx
        cases h : out s1.nodes x with
        | none => rfl
        | some o =>
          obtain ⟨j, hj1, hj2⟩ := out_lt h
          rw [hlen1] at hj2
          exfalso; apply hx
          rcases hj1 with rfl | rfl <;> exact hj2
      have honly1 : ∀ c, OnlyAt s1.nodes s1.cls c := by
        intro x
        by_cases hx : x.good (fun _ => True) e.extendStructure.nodes.length
        · exact step.okOnly (fun y _ => h1.only y) x hx
        · intro o ho; rw [hall x hx] at ho; cases ho
      have hclean1 : m = .if_ → t → ∀ c, IfAt s1.nodes s1.cls c := by
        intro hm ht x
        by_cases hx : x.good (fun _ => True) e.extendStructure.nodes.length
        · exact step.okIf hm (fun y _ => hcl (hc hm ht) y) x hx
        · intro o ho; rw [hall x hx] at ho; cases ho
      have hexact : ∀ a, cval (D1 a) outs = wsumT (trueLits a) sins := by
        intro a
        rw [hls]
        exact step.inv.outs hbal1 hgood hex a
      have hsound : ∀ a, ClauseSet.sat a s1.cls → match (generalizing := false) m with
          | .if_ => t → wsumT (trueLits a) sins ≤ cval a outs
          | .onlyIf => cval a outs ≤ wsumT (trueLits a) sins := by
        intro a ha
        cases m with
        | if_ =>
          intro ht
          rw [hls]
          exact le_outs step.inv.shape hbal1 (hclean1 rfl ht) (hready fun y _ => hcl (hc rfl ht) y) ha
        | onlyIf =>
          show _ ≤ _
          rw [hls]
          exact ge_outs step.inv.shape hbal1 honly1 (hready fun y _ => h1.only y) ha
      have hlinv : LInv t (inLit ins) (· ∈ own) (ManageVars.nUsed vm) sins outs s1.nodes m D1 (resize st.comparator r.2)
          (ManageVars.nUsed s1.vm) s1.cls := by
        refine ⟨step.inv, fun i o ho => ?_, hexact, fun l hl => ?_, hsound⟩
        · have := hcomp i o (resize_get.1 ho)
          refine this.mono (fun v hv => Or.inl hv) (fun a => step.old a _ (h1.s.ownLt _ this.own)) fun a ha => ?_
          rw [hnew1] at ha
          exact ((ClauseSet.sat_append _ _ _).1 ha).1
        · rw [hls] at hl
          obtain ⟨o, ho, hol⟩ := List.mem_map.1 hl
          cases o with
          | none => cases hol
          | some c => exact (step.inv.lit (hgood c ho) hol).1
      have hfit : ∀ v, v < e.weightSum → v < 2 ^ outs.length := by
        intro v hv
        have h2 := bval_lt (v := evalN (shape s1.nodes) fun _ => true) (fun c => Bool.toNat_le _) st.outputs 0
        rw [hbal1.exact step.inv.shape, ← hwsum] at h2
        have : outs.length = st.outputs.length := by rw [hls]; simp
        rw [this]
        simp only [Nat.pow_zero, Nat.zero_add] at h2
        omega
      have hcl0 := resize_length st.comparator r.2
      have hle1 : ManageVars.nUsed vm ≤ ManageVars.nUsed s1.vm := step.le
      -- the rest is the same in both directions
      have fin : ∀ (comp' : List (Option Out)) (vm' : VM) (new : ClauseSet) (D' : Asg → Asg),
          LInv t (inLit ins) (· ∈ own) (ManageVars.nUsed vm) sins outs s1.nodes m D' comp' (ManageVars.nUsed vm') (s1.cls ++ new) →
          (ManageVars.nUsed s1.vm ≤ ManageVars.nUsed vm' ∧ ∀ a v, v < ManageVars.nUsed s1.vm → D' a v = D1 a v) →
          CompGrow (resize st.comparator r.2) comp' →
          (m = .if_ → ∀ b, r.1 ≤ b → b < r.2 → ∃ o, comp'[b]? = some (some o) ∧ o.encIf = true) →
          (m = .onlyIf → ∀ b, r.1 ≤ b → b < r.2 → (∃ o, comp'[b - 1]? = some (some o) ∧ o.encOnlyIf = true) ∨
            ∃ o, (resize st.comparator r.2)[b - 1]? = some (some o) ∧ o.encIf = true) →
          (∀ (b : Nat) o, comp'[b]? = some (some o) → o.encIf = true → (m = .if_ ∧ r.1 ≤ b ∧ b < r.2) ∨
            ∃ o, (resize st.comparator r.2)[b]? = some (some o) ∧ o.encIf = true) →
          (∀ (b : Nat) o, comp'[b]? = some (some o) → o.encOnlyIf = true →
            (m = .onlyIf ∧ r.1 ≤ b + 1 ∧ b + 1 < r.2 ∧ ¬ ∃ o, (resize st.comparator r.2)[b]? = some (some o) ∧ o.encIf = true) ∨
            ∃ o, (resize st.comparator r.2)[b]? = some (some o) ∧ o.encOnlyIf = true) →
          Changed t m e r vm cls ins own
            { e.extendStructure with structure_ := some ⟨st.outputs, comp'⟩, nodes := s1.nodes,
                                     nClauses := e.extendStructure.nClauses + ((s1.cls ++ new).length - cls.length),
                                     nVars := e.extendStructure.nVars + (ManageVars.nUsed vm' - ManageVars.nUsed vm) }
            vm' (new1 ++ new) ∧
          Tracked t (ManageVars.nUsed vm) D
            { e.extendStructure with structure_ := some ⟨st.outputs, comp'⟩, nodes := s1.nodes,
                                     nClauses := e.extendStructure.nClauses + ((s1.cls ++ new).length - cls.length),
                                     nVars := e.extendStructure.nVars + (ManageVars.nUsed vm' - ManageVars.nUsed vm) }
            (ManageVars.nUsed vm') (cls ++ (new1 ++ new)) ins (own ++ CardWorld.handedOut vm vm') := by
        intro comp' vm' new D' hl ⟨hle, hold⟩ hg hub hlb hfrom hfromLb
        have hown : ∀ v, v ∈ own ++ CardWorld.handedOut vm vm' ↔ Own (· ∈ own) (ManageVars.nUsed vm) (ManageVars.nUsed vm') v := by
          intro v; rw [List.mem_append, mem_handedOut]; rfl
        have hcls : cls ++ (new1 ++ new) = s1.cls ++ new := by rw [← List.append_assoc, ← hnew1]
        have htr : ∀ k1 k2, InvWith t
            { e.extendStructure with structure_ := some ⟨st.outputs, comp'⟩, nodes := s1.nodes, nClauses := k1, nVars := k2 } (ManageVars.nUsed vm') (cls ++ (new1 ++ new)) ins
              (own ++ CardWorld.handedOut vm vm') sins cols D' := by
          intro k1 k2
          rw [hcls]
          refine ⟨h1.sum, h1.ws, h1.sub, h1.buf, hl.s.rebase hown (Nat.le_refl _), fun c => ?_, hbal1,
            fun c hc => by rw [hlen1]; exact hgood c hc, fun i o ho => ?_⟩
          · exact (honly1 c).mono (Grow.refl _) (fun k hk => by simp [hk]) fun o ho hf => ⟨o, ho, hf⟩
          · exact (hl.comp i o ho).mono (fun v hv => (hown v).2 hv) (fun _ => rfl) fun _ h => h
        refine ⟨⟨⟨_, _, _, htr _ _⟩, by omega, fun hm ht => ?_, ?_, ?_, fun _ => hbuf, fun hn => absurd (by omega) hn, fun hb b hu => ?_,
          fun hb b hu => ?_, fun hm b h2 h3 => ?_, fun hm b h2 h3 => ?_, fun _ b hu => ?_, fun _ b hb1 hu => ?_⟩,
          ⟨_, _, D', htr _ _, fun a v hv => by rw [hold a v (by omega), step.old a v hv]⟩⟩
        · rw [hcls]
          exact fun c => (hclean1 hm ht c).mono (Grow.refl _) (fun k hk => by simp [hk]) rfl
        · simp only [hnv]
        · simp only [hnc, hnew1, List.length_append]; omega
        · rw [hkeep hb] at hs
          obtain ⟨st', o, a1, a2, a3⟩ := hu
          rw [hs] at a1; cases a1
          obtain ⟨o', b1, b2, -⟩ := hg.2 b o (resize_get.2 a2)
          exact ⟨_, o', rfl, b1, b2 a3⟩
        · rw [hkeep hb] at hs
          obtain ⟨st', o, a1, a2, a3⟩ := hu
          rw [hs] at a1; cases a1
          obtain ⟨o', b1, -, b2⟩ := hg.2 (b - 1) o (resize_get.2 a2)
          exact ⟨_, o', rfl, b1, b2 a3⟩
        · obtain ⟨o, a1, a2⟩ := hub hm b h2 h3
          exact ⟨_, o, rfl, a1, a2⟩
        · rcases hlb hm b h2 h3 with ⟨o, a1, a2⟩ | ⟨o, a1, a2⟩
          · exact Or.inl ⟨_, o, rfl, a1, a2⟩
          · have a1 := resize_get.1 a1
            rcases hext with ⟨hb, he⟩ | ⟨hb, st', a3, a4⟩
            · rw [he] at hs
              exact Or.inr ⟨hb, st, o, hs, a1, a2⟩
            · rw [hs] at a3; cases a3
              rw [a4] at a1; simp at a1
        · obtain ⟨st', o, a1, a2, a3⟩ := hu
          cases a1
          rcases hfrom b o a2 a3 with h | ⟨o, a1, a2⟩
          · exact Or.inl h
          · have a1 := resize_get.1 a1
            rcases hext with ⟨hb, he⟩ | ⟨hb, st', a3, a4⟩
            · rw [he] at hs
              exact Or.inr ⟨hb, st, o, hs, a1, a2⟩
            · rw [hs] at a3; cases a3
              rw [a4] at a1; simp at a1
        · obtain ⟨st', o, a1, a2, a3⟩ := hu
          cases a1
          rcases hfromLb (b - 1) o a2 a3 with ⟨hm, h2, h3, h4⟩ | ⟨o, a1, a2⟩
          · rw [Nat.sub_add_cancel hb1] at h2 h3
            refine Or.inl ⟨hm, h2, h3, fun hb hu => h4 ?_⟩
            rw [hkeep hb] at hs
            obtain ⟨st', o, a1, a2, a3⟩ := hu
            rw [hs] at a1; cases a1
            exact ⟨o, resize_get.2 a2, a3⟩
          · have a1 := resize_get.1 a1
            rcases hext with ⟨hb, he⟩ | ⟨hb, st', a3, a4⟩
            · rw [he] at hs
              exact Or.inr ⟨hb, st, o, hs, a1, a2⟩
            · rw [hs] at a3; cases a3
              rw [a4] at a1; simp at a1
      have hvals : ∀ v, v ∈ List.range' r.1 (r.2 - r.1) ↔ r.1 ≤ v ∧ v < r.2 := by
        intro v; rw [List.mem_range'_1]; omega
      unfold BinaryAdder.encodeChange
      rw [if_neg hlt]
      simp only [hs, e1]
      cases m with
      | if_ =>
        obtain ⟨comp', vm', new, D', e2, hl, hle, hg, hfrom, hfromLb, hub⟩ := ubLoop_spec (List.range' r.1 (r.2 - r.1)) D1 _ s1.vm s1.cls
          hlinv fun v hv => by
            obtain ⟨h2, h3⟩ := (hvals v).1 hv
            exact ⟨by omega, hfit v (hr v h2 h3)⟩
        simp only [e2]
        refine ⟨_, vm', new1 ++ new, ?_, fin comp' vm' new D' hl hle hg (fun _ b h2 h3 => hub b ((hvals b).2 ⟨h2, h3⟩))
          (fun hm => by cases hm) (fun b o a1 a2 => ?_) fun b o a1 a2 => Or.inr (hfromLb b o a1 a2)⟩
        · rw [hnew1]; simp
        · rcases hfrom b o a1 a2 with h | h
          · exact Or.inl ⟨rfl, (hvals b).1 h⟩
          · exact Or.inr h
      | onlyIf =>
        obtain ⟨comp', vm', new, D', e2, hl, hle, hg, hfrom, hfromLb, hlb⟩ := lbLoop_spec (List.range' r.1 (r.2 - r.1)) D1 _ s1.vm s1.cls
          hlinv fun v hv => by
            obtain ⟨h2, h3⟩ := (hvals v).1 hv
            have h4 : 1 ≤ v ∧ v ≤ e.weightSum := hr v h2 h3
            exact ⟨by omega, hfit _ (by omega)⟩
        simp only [e2]
        refine ⟨_, vm', new1 ++ new, ?_, fin comp' vm' new D' hl hle hg (fun hm => by cases hm)
          (fun _ b h2 h3 => hlb b ((hvals b).2 ⟨h2, h3⟩)) (fun b o a1 a2 => Or.inr (hfrom b o a1 a2)) fun b o a1 a2 => ?_⟩
        · rw [hnew1]; simp
        · rcases hfromLb b o a1 a2 with ⟨v, hv, hvb, h⟩ | h
          · obtain ⟨h2, h3⟩ := (hvals v).1 hv
            have h4 : 1 ≤ v ∧ v ≤ e.weightSum := hr v h2 h3
            exact Or.inl ⟨rfl, by omega, by omega, h⟩
          · exact Or.inr h

theorem Inv.encodeChange {VM : Type} [ManageVars VM] [LawfulVM VM] {vm : VM} (h : Inv t e (ManageVars.nUsed vm) cls ins own)
    (m : Mode) (hc : m = .if_ → t → e.Clean cls) (r : Nat × Nat)
    (hr : ∀ v, r.1 ≤ v → v < r.2 → match m with | .if_ => v < e.weightSum | .onlyIf => 1 ≤ v ∧ v ≤ e.weightSum)
    (col : ClauseSet) : ∃ e' vm' new, e.encodeChange m r vm col = some (e', vm', col ++ new) ∧
      Changed t m e r vm cls ins own e' vm' new := by
  obtain ⟨_, _, _, h0⟩ := h
  obtain ⟨e', vm', new, h1, h2, -⟩ := h0.encodeChange m hc r hr col
  exact ⟨e', vm', new, h1, h2⟩

theorem prepareLb_iff {ws : Nat} {r : URange} {b : Nat} :
    (Pb.prepareLbRange ws r).1 ≤ b ∧ b < (Pb.prepareLbRange ws r).2 ↔ r.contains b ∧ 1 ≤ b ∧ b ≤ ws := by
  unfold Pb.prepareLbRange URange.contains
  cases r.lo <;> cases r.hi <;> simp only [true_and, and_true] <;> omega

theorem Inv.encodeUbChange {VM : Type} [ManageVars VM] [LawfulVM VM] {vm : VM} (h : Inv t e (ManageVars.nUsed vm) cls ins own)
    (hc : t → e.Clean cls) (r : URange) (col : ClauseSet) : ∃ e' vm' new, e.encodeUbChange r vm col = some (e', vm', col ++ new) ∧
      Changed t .if_ e (Pb.prepareUbRange e.weightSum r) vm cls ins own e' vm' new :=
  h.encodeChange .if_ (fun _ => hc) _ (fun _ h1 h2 => (Gte.Inv.prepareUb_iff.1 ⟨h1, h2⟩).2) col

theorem Inv.encodeLbChange {VM : Type} [ManageVars VM] [LawfulVM VM] {vm : VM} (h : Inv t e (ManageVars.nUsed vm) cls ins own)
    (r : URange) (col : ClauseSet) : ∃ e' vm' new, e.encodeLbChange r vm col = some (e', vm', col ++ new) ∧
      Changed t .onlyIf e (Pb.prepareLbRange e.weightSum r) vm cls ins own e' vm' new :=
  h.encodeChange .onlyIf (fun hm => by cases hm) _ (fun _ h1 h2 => (prepareLb_iff.1 ⟨h1, h2⟩).2) col

/-! ### Enforcing -/

theorem cubeSat_one {m : Asg} {l : Lit} : cubeSat m [l] ↔ l.holds m = true := by
  unfold cubeSat; simp

theorem enforceUb_cases (e : BinaryAdder) (b : Nat) : (e.weightSum ≤ b ∧ e.enforceUb b = .ok []) ∨
    (b < e.weightSum ∧ ((¬ e.HasUb b ∧ e.enforceUb b = .err .notEncoded) ∨
      ∃ st o, e.structure_ = some st ∧ st.comparator[b]? = some (some o) ∧ o.encIf = true ∧ e.enforceUb b = .ok [o.bit.neg])) := by
  unfold enforceUb HasUb
  by_cases h : b ≥ e.weightSum
  · exact Or.inl ⟨h, if_pos h⟩
  · refine Or.inr ⟨by omega, ?_⟩
    rw [if_neg h]
    cases hs : e.structure_ with
    | none => exact Or.inl ⟨(by rintro ⟨st, o, h1, -⟩; cases h1), rfl⟩
    | some st =>
      simp only
      cases hc : st.comparator[b]? with
      | none => exact Or.inl ⟨(by rintro ⟨st', o, h1, h2, -⟩; cases h1; rw [hc] at h2; cases h2), rfl⟩
      | some oo =>
        cases oo with
        | none => exact Or.inl ⟨(by rintro ⟨st', o, h1, h2, -⟩; cases h1; rw [hc] at h2; cases h2), rfl⟩
        | some o =>
          by_cases hf : o.encIf = true
          · exact Or.inr ⟨st, o, rfl, hc, hf, by simp [hf]⟩
          · refine Or.inl ⟨?_, by simp [hf]⟩
            rintro ⟨st', o', h1, h2, h3⟩
            cases h1; rw [hc] at h2; cases h2
            exact hf h3

theorem enforceLb_cases (e : BinaryAdder) (b : Nat) : (e.weightSum < b ∧ e.enforceLb b = .err .unsat) ∨ (b = 0 ∧ e.enforceLb b = .ok []) ∨
    (1 ≤ b ∧ b ≤ e.weightSum ∧ ((¬ e.HasLb b ∧ e.enforceLb b = .err .notEncoded) ∨
      ∃ st o, e.structure_ = some st ∧ st.comparator[b - 1]? = some (some o) ∧ o.encOnlyIf = true ∧
        e.enforceLb b = .ok [o.bit])) := by
  unfold enforceLb HasLb
  by_cases h : b > e.weightSum
  · exact Or.inl ⟨h, if_pos h⟩
  · rw [if_neg h]
    by_cases h0 : b = 0
    · exact Or.inr (Or.inl ⟨h0, if_pos h0⟩)
    · refine Or.inr (Or.inr ⟨by omega, by omega, ?_⟩)
      rw [if_neg h0]
      cases hs : e.structure_ with
      | none => exact Or.inl ⟨(by rintro ⟨st, o, h1, -⟩; cases h1), rfl⟩
      | some st =>
        simp only
        cases hc : st.comparator[b - 1]? with
        | none => exact Or.inl ⟨(by rintro ⟨st', o, h1, h2, -⟩; cases h1; rw [hc] at h2; cases h2), rfl⟩
        | some oo =>
          cases oo with
          | none => exact Or.inl ⟨(by rintro ⟨st', o, h1, h2, -⟩; cases h1; rw [hc] at h2; cases h2), rfl⟩
          | some o =>
            by_cases hf : o.encOnlyIf = true
            · exact Or.inr ⟨st, o, rfl, hc, hf, by simp [hf]⟩
            · refine Or.inl ⟨?_, by simp [hf]⟩
              rintro ⟨st', o', h1, h2, h3⟩
              cases h1; rw [hc] at h2; cases h2
              exact hf h3

theorem InvWith.free (h : InvWith t e n cls ins own sins cols D) (a : Asg) : (∀ v, v ∉ own → D a v = a v) ∧ ClauseSet.sat (D a) cls := by
  refine ⟨fun v hv => h.s.agree a v ?_, h.s.sat a⟩
  rintro (h1 | h1)
  · exact hv h1
  · omega

/-- The comparator outputs with respect to the inputs that are part of the structure. -/
theorem InvWith.ub (h : InvWith t e n cls ins own sins cols D) {b : Nat} {A : List Lit} (hA : e.enforceUb b = .ok A)
    (hs : b < e.weightSum) : (t → ∀ m, ClauseSet.sat m cls → cubeSat m A → wsumT (trueLits m) sins ≤ b) ∧
      (∀ a, wsumT (trueLits a) sins ≤ b → cubeSat (D a) A) ∧ ∀ l ∈ A, l.var ∈ own := by
  rcases enforceUb_cases e b with ⟨h1, -⟩ | ⟨-, ⟨-, h2⟩ | ⟨st, o, h1, h2, h3, h4⟩⟩
  · omega
  · rw [hA] at h2; cases h2
  · rw [hA] at h4; cases h4
    have hstr := h.str
    unfold StrOk at hstr
    rw [h1] at hstr
    have hco := hstr.2.2 b o h2
    refine ⟨fun ht m hm hc => ?_, fun a ha => ?_, fun l hl => ?_⟩
    · rw [cubeSat_one, Lit.holds_neg] at hc
      exact hco.ifOk ht h3 m hm (by simpa using hc)
    · rw [cubeSat_one, Lit.holds_neg, hco.exact a]; simpa using ha
    · rw [List.mem_singleton.1 hl, Lit.var_neg]; exact hco.own

theorem InvWith.lb (h : InvWith t e n cls ins own sins cols D) {b : Nat} {A : List Lit} (hA : e.enforceLb b = .ok A)
    (hs : 1 ≤ b) : (∀ m, ClauseSet.sat m cls → cubeSat m A → b ≤ wsumT (trueLits m) sins) ∧
      (∀ a, b ≤ wsumT (trueLits a) sins → cubeSat (D a) A) ∧ ∀ l ∈ A, l.var ∈ own := by
  rcases enforceLb_cases e b with ⟨-, h1⟩ | ⟨h1, -⟩ | ⟨-, -, ⟨-, h2⟩ | ⟨st, o, h1, h2, h3, h4⟩⟩
  · rw [hA] at h1; cases h1
  · omega
  · rw [hA] at h2; cases h2
  · rw [hA] at h4; cases h4
    have hstr := h.str
    unfold StrOk at hstr
    rw [h1] at hstr
    have hco := hstr.2.2 (b - 1) o h2
    refine ⟨fun m hm hc => ?_, fun a ha => ?_, fun l hl => ?_⟩
    · rw [cubeSat_one] at hc
      have := hco.onlyOk h3 m hm hc
      omega
    · rw [cubeSat_one, hco.exact a]; simp only [decide_eq_true_eq]; omega
    · rw [List.mem_singleton.1 hl]; exact hco.own

theorem Inv.enforceUb (h : Inv t e n cls ins own) (ht : t) (hb : e.litBuffer = []) {b : Nat} {A : List Lit} (hA : e.enforceUb b = .ok A) :
    Enforces cls own (Item.vars ins) A fun a => wsumT (trueLits a) ins ≤ b := by
  obtain ⟨sins, cols, D, h⟩ := h
  have hsum : ∀ T, wsumT T sins = wsumT T ins := by
    intro T; rw [← h.sum T, hb]; simp [wsumT]
  by_cases hs : b < e.weightSum
  · obtain ⟨h1, h2, h3⟩ := h.ub hA hs
    refine ⟨fun m hm hc => by rw [← hsum]; exact h1 ht m hm hc, fun a ha => ⟨D a, (h.free a).1, (h.free a).2, h2 a ?_⟩,
      fun l hl => Or.inr (h3 l hl)⟩
    rw [hsum]; exact ha
  · have : A = [] := by
      rcases enforceUb_cases e b with ⟨h1, h2⟩ | ⟨h1, -⟩
      · rw [hA] at h2; cases h2; rfl
      · omega
    subst this
    refine ⟨fun m _ _ => ?_, fun a _ => ⟨D a, (h.free a).1, (h.free a).2, by simp [cubeSat]⟩, by simp⟩
    rw [h.weightSum] at hs
    exact Nat.le_trans (wsumT_le _ _) (by omega)

theorem Inv.enforceLb (h : Inv t e n cls ins own) (hb : e.litBuffer = []) {b : Nat} {A : List Lit} (hA : e.enforceLb b = .ok A) :
    Enforces cls own (Item.vars ins) A fun a => b ≤ wsumT (trueLits a) ins := by
  obtain ⟨sins, cols, D, h⟩ := h
  have hsum : ∀ T, wsumT T sins = wsumT T ins := by
    intro T; rw [← h.sum T, hb]; simp [wsumT]
  by_cases hs : 1 ≤ b
  · obtain ⟨h1, h2, h3⟩ := h.lb hA hs
    refine ⟨fun m hm hc => by rw [← hsum]; exact h1 m hm hc, fun a ha => ⟨D a, (h.free a).1, (h.free a).2, h2 a ?_⟩,
      fun l hl => Or.inr (h3 l hl)⟩
    rw [hsum]; exact ha
  · have : A = [] := by
      rcases enforceLb_cases e b with ⟨h1, -⟩ | ⟨h1, h2⟩ | ⟨h1, -⟩
      · omega
      · rw [hA] at h2; cases h2; rfl
      · omega
    subst this
    exact ⟨fun m _ _ => by omega, fun a _ => ⟨D a, (h.free a).1, (h.free a).2, by simp [cubeSat]⟩, by simp⟩

/-- A lower bound stays sound when literals are waiting to be included. -/
theorem Inv.lb_sound (h : Inv t e n cls ins own) {b : Nat} {A : List Lit} (hA : e.enforceLb b = .ok A) {m : Asg}
    (hm : ClauseSet.sat m cls) (hc : cubeSat m A) : b ≤ wsumT (trueLits m) ins := by
  obtain ⟨sins, cols, D, h⟩ := h
  have hsum := h.sum (trueLits m)
  by_cases hs : 1 ≤ b
  · have := (h.lb hA hs).1 m hm hc; omega
  · omega

/-- The assumptions of both bounds together are complete. -/
theorem Inv.eq_complete (h : Inv t e n cls ins own) (hb : e.litBuffer = []) {b : Nat} {A1 A2 : List Lit} (hA1 : e.enforceUb b = .ok A1)
    (hA2 : e.enforceLb b = .ok A2) {a : Asg} (ha : wsumT (trueLits a) ins = b) :
    ∃ m, (∀ v, v ∉ own → m v = a v) ∧ ClauseSet.sat m cls ∧ cubeSat m A1 ∧ cubeSat m A2 := by
  obtain ⟨sins, cols, D, h⟩ := h
  have hsum : ∀ T, wsumT T sins = wsumT T ins := by
    intro T; rw [← h.sum T, hb]; simp [wsumT]
  refine ⟨D a, (h.free a).1, (h.free a).2, ?_, ?_⟩
  · by_cases hs : b < e.weightSum
    · exact (h.ub hA1 hs).2.1 a (by rw [hsum]; omega)
    · rcases enforceUb_cases e b with ⟨h1, h2⟩ | ⟨h1, -⟩
      · rw [hA1] at h2; cases h2; simp [cubeSat]
      · omega
  · by_cases hs : 1 ≤ b
    · exact (h.lb hA2 hs).2.1 a (by rw [hsum]; omega)
    · rcases enforceLb_cases e b with ⟨h1, -⟩ | ⟨h1, h2⟩ | ⟨h1, -⟩
      · omega
      · rw [hA2] at h2; cases h2; simp [cubeSat]
      · omega

/-- An upper bound stays complete when literals are waiting to be included. -/
theorem Inv.ub_complete (h : Inv t e n cls ins own) {b : Nat} {A : List Lit} (hA : e.enforceUb b = .ok A) {a : Asg}
    (ha : wsumT (trueLits a) ins ≤ b) : ∃ m, (∀ v, v ∉ own → m v = a v) ∧ ClauseSet.sat m cls ∧ cubeSat m A := by
  obtain ⟨sins, cols, D, h⟩ := h
  have hsum := h.sum (trueLits a)
  refine ⟨D a, (h.free a).1, (h.free a).2, ?_⟩
  by_cases hs : b < e.weightSum
  · exact (h.ub hA hs).2.1 a (by omega)
  · rcases enforceUb_cases e b with ⟨h1, h2⟩ | ⟨h1, -⟩
    · rw [hA] at h2; cases h2; simp [cubeSat]
    · omega

end BinaryAdder
end RustSat
