import Verif.Spec.PyEnc
import Verif.Lemmas.Collector
import Verif.Props.Totalizer
import Verif.Props.Gte
import Verif.Props.Adder
import Verif.Props.Dpw
/-
Python programs show histories of the encoders, with all CNFs together as the collected clauses.
-/
namespace RustSat
namespace PyEncWorld
open Card

/-- A state of the Python program shows a state of an encoder. -/
structure View (w : PyEncWorld) (vm : BasicVM) (cls : ClauseSet) (ins : List (Lit × Nat)) (own : List Nat) : Prop where
  vm : w.vm.vm = vm
  cls : w.formula = cls
  ins : w.ins = ins
  own : w.own = own

structure SimTot (w : PyEncWorld) (t : Totalizer) (c : CardWorld BasicVM) : Prop where
  reach : CardWorld.Reach (fun op => op ≠ .reserve) c
  enc : c.tot = t
  view : w.View c.vm c.cls (c.ins.map fun l => (l, 1)) c.own
  ub : ∀ b, w.ub b ↔ c.ub b
  lb : ∀ b, w.lb b ↔ c.lb b

structure SimGte (w : PyEncWorld) (g : Gte) (c : GteWorld BasicVM) : Prop where
  reach : GteWorld.Reach (fun op => op ≠ .reserve) c
  enc : c.gte = g
  view : w.View c.vm c.cls c.ins c.own

structure SimAdder (w : PyEncWorld) (a : BinaryAdder) (c : AdderWorld BasicVM) : Prop where
  reach : AdderWorld.Reach AdderWorld.ubSafe c
  enc : c.enc = a
  view : w.View c.vm c.cls c.ins c.own
  ub : ∀ b, w.ub b ↔ c.ub b
  lb : ∀ b, w.lb b → ¬ w.ub (b - 1) → c.lb b
  since : c.lbSince = w.lbUsed

structure SimDpw (w : PyEncWorld) (d : Dpw) (c : DpwWorld BasicVM) : Prop where
  reach : DpwWorld.Reach DpwWorld.noReserve c
  enc : c.dpw = d
  view : w.View c.vm c.cls c.ins c.own
  ub : ∀ b, w.ub b → c.ub b
  div : d.precDiv = 1

/-- Every state of the Python program shows a reachable state of the encoder. -/
def Sim (w : PyEncWorld) : Prop :=
  match w.enc with
  | .tot t => ∃ c, w.SimTot t c
  | .gte g => ∃ c, w.SimGte g c
  | .adder a => ∃ c, w.SimAdder a c
  | .dpw d => ∃ c, w.SimDpw d c

theorem sim_tot {w : PyEncWorld} {t : Totalizer} (c : CardWorld BasicVM) (ho : w.enc = .tot t) (h : w.SimTot t c) : w.Sim := by
  unfold Sim; rw [ho]; exact ⟨c, h⟩

theorem sim_gte {w : PyEncWorld} {g : Gte} (c : GteWorld BasicVM) (ho : w.enc = .gte g) (h : w.SimGte g c) : w.Sim := by
  unfold Sim; rw [ho]; exact ⟨c, h⟩

theorem sim_adder {w : PyEncWorld} {a : BinaryAdder} (c : AdderWorld BasicVM) (ho : w.enc = .adder a) (h : w.SimAdder a c) : w.Sim := by
  unfold Sim; rw [ho]; exact ⟨c, h⟩

theorem sim_dpw {w : PyEncWorld} {d : Dpw} (c : DpwWorld BasicVM) (ho : w.enc = .dpw d) (h : w.SimDpw d c) : w.Sim := by
  unfold Sim; rw [ho]; exact ⟨c, h⟩

theorem View.encoded {w : PyEncWorld} {vm vm' : BasicVM} {cls new : ClauseSet} {ins : List (Lit × Nat)} {own : List Nat}
    (h : w.View vm cls ins own) (o : PyEnc) (ub lb : Nat → Prop) (lu : Bool) :
    ({ enc := o, vm := ⟨vm'⟩, cnfs := w.cnfs ++ [PySeq.new new], ins := w.ins,
       own := w.own ++ List.range' w.vm.nUsed ((⟨vm'⟩ : PyVarManager).nUsed - w.vm.nUsed), ub := ub, lb := lb, lbUsed := lu } : PyEncWorld).View
      vm' (cls ++ new) ins (own ++ CardWorld.handedOut vm vm') := by
  refine ⟨rfl, ?_, h.ins, ?_⟩
  · show (w.cnfs ++ [PySeq.new new]).flatMap (·.items) = _
    rw [List.flatMap_append, ← h.cls]
    simp [formula, PySeq.new]
  · show w.own ++ _ = _
    rw [h.own]
    unfold CardWorld.handedOut PyVarManager.nUsed
    rw [h.vm]

theorem increase_le (m : PyVarManager) (n : Nat) : ManageVars.nUsed m.vm ≤ ManageVars.nUsed (m.increaseUsed n).2.vm := by
  obtain ⟨⟨k⟩⟩ := m
  show k ≤ ManageVars.nUsed (if n > k then (true, (⟨n⟩ : BasicVM)) else (false, ⟨k⟩)).2
  by_cases h : n > k
  · rw [if_pos h]; show k ≤ n; omega
  · rw [if_neg h]; exact Nat.le_refl k

theorem newVar_le (m : PyVarManager) : ManageVars.nUsed m.vm ≤ ManageVars.nUsed m.newVar.2.vm := Nat.le_succ _

theorem pyRange_ok {lo hi : Nat} (h : hi < Capi.sizeMax) : pyRange lo hi = ⟨.incl lo, .incl hi⟩ := if_pos h

theorem contains_incl {lo hi b : Nat} : (⟨.incl lo, .incl hi⟩ : URange).contains b ↔ lo ≤ b ∧ b ≤ hi := Iff.rfl

section pre
variable {VM : Type} [ManageVars VM]

theorem pre_some {E : Type} {c : ClauseSet} {r : Option (E × VM × ClauseSet)} {x : E × VM × ClauseSet} (h : preRes c r = some x) :
    ∃ y, r = some y ∧ x = (y.1, y.2.1, c ++ y.2.2) := by
  cases r with
  | none => cases h
  | some y => cases h; exact ⟨y, rfl, rfl⟩

end pre

theorem tot_any {c : CardWorld BasicVM} (h : CardWorld.Reach (fun op => op ≠ .reserve) c) : CardWorld.Reach anyOp c := by
  induction h with
  | start lits vm h => exact .start lits vm h
  | step w w' op _ _ ha hs ih => exact .step w w' op ih trivial ha hs

theorem gte_any {c : GteWorld BasicVM} (h : GteWorld.Reach (fun op => op ≠ .reserve) c) : GteWorld.Reach anyGteOp c := by
  induction h with
  | start lits vm hn h => exact .start lits vm hn h
  | step w w' op _ _ ha hs ih => exact .step w w' op ih trivial ha hs

theorem adder_any {c : AdderWorld BasicVM} (h : AdderWorld.Reach AdderWorld.ubSafe c) : AdderWorld.Reach anyAdderOp c := by
  induction h with
  | start lits vm hn h => exact .start lits vm hn h
  | step w w' op _ _ ha hs ih => exact .step w w' op ih trivial ha hs

theorem dpw_any {c : DpwWorld BasicVM} (h : DpwWorld.Reach DpwWorld.noReserve c) : DpwWorld.Reach anyDpwOp c := by
  induction h with
  | start lits vm e hn h he => exact .start lits vm e hn h he
  | default vm => exact .default vm
  | step w w' op _ _ ha hs ih => exact .step w w' op ih trivial ha hs

variable {w : PyEncWorld}

theorem step_tot {t : Totalizer} {c : CardWorld BasicVM} (ho : w.enc = .tot t) (h : w.SimTot t c) (call : PyCall) (ha : w.allowed call) :
    ∃ w', w.step call = some w' ∧ w'.Sim := by
  obtain ⟨hr, rfl, hv, hu, hl⟩ := h
  have hr0 := tot_any hr
  have hvm : ∀ vm : PyVarManager, ManageVars.nUsed w.vm.vm ≤ ManageVars.nUsed vm.vm → ({ w with vm := vm } : PyEncWorld).Sim := fun vm hle =>
    sim_tot { c with vm := vm.vm } ho ⟨.step c _ (.useVars vm.vm) hr (fun h => by cases h) (by rw [hv.vm] at hle; exact hle) rfl, rfl,
      ⟨rfl, hv.cls, hv.ins, hv.own⟩, hu, hl⟩
  cases call with
  | extend xs =>
    refine ⟨_, rfl, ?_⟩
    obtain ⟨a1, a2⟩ := ha
    rw [ho] at a2
    refine sim_tot { c with tot := c.tot.extend (xs.map (·.1)), ins := c.ins ++ xs.map (·.1), ub := fun b => c.ub b ∧ xs.map (·.1) = [],
                            lb := fun b => c.lb b ∧ xs.map (·.1) = [] } (by simp only [ho, PyEnc.extend])
      ⟨.step c _ (.add (xs.map (·.1))) hr (fun h => by cases h) ?_ rfl, rfl, ⟨hv.vm, hv.cls, ?_, hv.own⟩, ?_, ?_⟩
    · intro l hl
      obtain ⟨x, hx, rfl⟩ := List.mem_map.1 hl
      rw [← hv.vm, ← hv.own]
      exact (a1 x hx).2
    · show w.ins ++ xs = (c.ins ++ xs.map (·.1)).map fun l => (l, 1)
      rw [List.map_append, ← hv.ins, List.map_map]
      congr 1
      refine (List.map_id xs).symm.trans (List.map_congr_left fun x hx => ?_)
      have := a2 x hx
      exact Prod.ext rfl this
    · intro b
      show (w.ub b ∧ xs = []) ↔ (c.ub b ∧ xs.map (·.1) = [])
      rw [hu b, List.map_eq_nil_iff]
    · intro b
      show (w.lb b ∧ xs = []) ↔ (c.lb b ∧ xs.map (·.1) = [])
      rw [hl b, List.map_eq_nil_iff]
  | encodeUb lo hi =>
    obtain ⟨c', e, -⟩ := C28_no_panic c hr0 (.encodeUbChange ⟨.incl lo, .incl hi⟩) trivial
    have hs := e
    simp only [CardWorld.step, CardWorld.encoded] at e
    have hp := Totalizer.encodeUbChange_pre c.tot ⟨.incl lo, .incl hi⟩ c.vm c.cls []
    rw [List.append_nil] at hp
    simp only [step, PyEnc.encodeUb, ho, pyRange_ok ha.1]
    rw [hp] at e
    rw [hv.vm]
    cases hx : c.tot.encodeUbChange ⟨.incl lo, .incl hi⟩ c.vm [] with
    | none => rw [hx] at e; cases e
    | some x =>
      rw [hx] at e
      obtain ⟨t', vm', cls'⟩ := x
      simp only [preRes, Option.map_some, Option.some.injEq] at e
      subst e
      exact ⟨_, rfl, sim_tot _ rfl ⟨.step c _ _ hr (fun h => by cases h) (by trivial) hs, rfl, hv.encoded _ _ _ _,
        fun b => or_congr (hu b) Iff.rfl, hl⟩⟩
  | encodeLb lo hi =>
    obtain ⟨c', e, -⟩ := C28_no_panic c hr0 (.encodeLbChange ⟨.incl lo, .incl hi⟩) trivial
    have hs := e
    simp only [CardWorld.step, CardWorld.encoded] at e
    have hp := Totalizer.encodeLbChange_pre c.tot ⟨.incl lo, .incl hi⟩ c.vm c.cls []
    rw [List.append_nil] at hp
    simp only [step, PyEnc.encodeLb, ho, pyRange_ok ha.1]
    rw [hp] at e
    rw [hv.vm]
    cases hx : c.tot.encodeLbChange ⟨.incl lo, .incl hi⟩ c.vm [] with
    | none => rw [hx] at e; cases e
    | some x =>
      rw [hx] at e
      obtain ⟨t', vm', cls'⟩ := x
      simp only [preRes, Option.map_some, Option.some.injEq] at e
      subst e
      exact ⟨_, rfl, sim_tot _ rfl ⟨.step c _ _ hr (fun h => by cases h) (by trivial) hs, rfl, hv.encoded _ _ _ _,
        hu, fun b => or_congr (hl b) Iff.rfl⟩⟩
  | encodeBoth lo hi =>
    obtain ⟨c', e, -⟩ := C28_no_panic c hr0 (.encodeBoth ⟨.incl lo, .incl hi⟩) trivial
    have hs := e
    simp only [CardWorld.step, CardWorld.encoded] at e
    have hp := Totalizer.encodeBoth_pre c.tot ⟨.incl lo, .incl hi⟩ c.vm c.cls []
    rw [List.append_nil] at hp
    simp only [step, PyEnc.encodeBoth, ho, pyRange_ok ha.1]
    rw [hp] at e
    rw [hv.vm]
    cases hx : c.tot.encodeBoth ⟨.incl lo, .incl hi⟩ c.vm [] with
    | none => rw [hx] at e; cases e
    | some x =>
      rw [hx] at e
      obtain ⟨t', vm', cls'⟩ := x
      simp only [preRes, Option.map_some, Option.some.injEq] at e
      subst e
      exact ⟨_, rfl, sim_tot _ rfl ⟨.step c _ _ hr (fun h => by cases h) (by trivial) hs, rfl, hv.encoded _ _ _ _,
        fun b => or_congr (hu b) Iff.rfl, fun b => or_congr (hl b) Iff.rfl⟩⟩
  | newVar => exact ⟨_, rfl, hvm _ (newVar_le w.vm)⟩
  | increaseUsed n => exact ⟨_, rfl, hvm _ (increase_le w.vm n)⟩
  | rehash b => unfold allowed at ha; simp only [ho] at ha

theorem step_gte {g : Gte} {c : GteWorld BasicVM} (ho : w.enc = .gte g) (h : w.SimGte g c) (call : PyCall) (ha : w.allowed call) :
    ∃ w', w.step call = some w' ∧ w'.Sim := by
  obtain ⟨hr, rfl, hv⟩ := h
  have hr0 := gte_any hr
  have hvm : ∀ vm : PyVarManager, ManageVars.nUsed w.vm.vm ≤ ManageVars.nUsed vm.vm → ({ w with vm := vm } : PyEncWorld).Sim := fun vm hle =>
    sim_gte { c with vm := vm.vm } ho ⟨.step c _ (.useVars vm.vm) hr (fun h => by cases h) (by rw [hv.vm] at hle; exact hle) rfl, rfl,
      ⟨rfl, hv.cls, hv.ins, hv.own⟩⟩
  cases call with
  | extend xs =>
    refine ⟨_, rfl, ?_⟩
    obtain ⟨a1, -⟩ := ha
    refine sim_gte { c with gte := c.gte.extend xs, ins := c.ins ++ xs, ub := fun b => c.ub b ∧ xs = [] } (by simp only [ho, PyEnc.extend])
      ⟨.step c _ (.add xs) hr (fun h => by cases h) ?_ rfl, rfl, ⟨hv.vm, hv.cls, ?_, hv.own⟩⟩
    · intro x hx
      rw [← hv.vm, ← hv.own]
      exact a1 x hx
    · show w.ins ++ xs = c.ins ++ xs
      rw [hv.ins]
  | encodeUb lo hi =>
    obtain ⟨c', e, -⟩ := C33_no_panic c hr0 (.encodeUbChange ⟨.incl lo, .incl hi⟩) trivial
    have hs := e
    simp only [GteWorld.step, GteWorld.encoded] at e
    have hp := Gte.encodeUbChange_pre c.gte ⟨.incl lo, .incl hi⟩ c.vm c.cls []
    rw [List.append_nil] at hp
    simp only [step, PyEnc.encodeUb, ho, pyRange_ok ha.1]
    rw [hp] at e
    rw [hv.vm]
    cases hx : c.gte.encodeUbChange ⟨.incl lo, .incl hi⟩ c.vm [] with
    | none => rw [hx] at e; cases e
    | some x =>
      rw [hx] at e
      obtain ⟨t', vm', cls'⟩ := x
      simp only [preRes, Option.map_some, Option.some.injEq] at e
      subst e
      exact ⟨_, rfl, sim_gte _ rfl ⟨.step c _ _ hr (fun h => by cases h) (by trivial) hs, rfl, hv.encoded _ _ _ _⟩⟩
  | encodeLb lo hi => have := ha.2; rw [ho] at this; exact this.elim
  | encodeBoth lo hi => have := ha.2; rw [ho] at this; exact this.elim
  | newVar => exact ⟨_, rfl, hvm _ (newVar_le w.vm)⟩
  | increaseUsed n => exact ⟨_, rfl, hvm _ (increase_le w.vm n)⟩
  | rehash b =>
    unfold allowed at ha
    simp only [ho] at ha
    exact ⟨_, rfl, sim_gte { c with gte := { c.gte with litBuffer := b } } (by simp only [ho, rehashed])
      ⟨.step c _ (.rehash b) hr (fun h => by cases h) ha rfl, rfl, ⟨hv.vm, hv.cls, hv.ins, hv.own⟩⟩⟩

theorem step_adder {a : BinaryAdder} {c : AdderWorld BasicVM} (ho : w.enc = .adder a) (h : w.SimAdder a c) (call : PyCall) (ha : w.allowed call) :
    ∃ w', w.step call = some w' ∧ w'.Sim := by
  obtain ⟨hr, rfl, hv, hu, hl, hsi⟩ := h
  have hr0 := adder_any hr
  have hvm : ∀ vm : PyVarManager, ManageVars.nUsed w.vm.vm ≤ ManageVars.nUsed vm.vm → ({ w with vm := vm } : PyEncWorld).Sim := fun vm hle =>
    sim_adder { c with vm := vm.vm } ho ⟨.step c _ (.useVars vm.vm) hr trivial (by rw [hv.vm] at hle; exact hle) rfl, rfl,
      ⟨rfl, hv.cls, hv.ins, hv.own⟩, hu, hl, hsi⟩
  cases call with
  | extend xs =>
    refine ⟨_, rfl, ?_⟩
    obtain ⟨a1, -⟩ := ha
    refine sim_adder { c with enc := c.enc.extend xs, ins := c.ins ++ xs, ub := fun b => c.ub b ∧ xs = [], lb := fun b => c.lb b ∧ xs = [] }
      (by simp only [ho, PyEnc.extend])
      ⟨.step c _ (.add xs) hr trivial ?_ rfl, rfl, ⟨hv.vm, hv.cls, ?_, hv.own⟩, fun b => and_congr (hu b) Iff.rfl, ?_, hsi⟩
    · intro x hx
      rw [← hv.vm, ← hv.own]
      exact a1 x hx
    · show w.ins ++ xs = c.ins ++ xs
      rw [hv.ins]
    · intro b h1 h2
      exact ⟨hl b h1.1 fun h => h2 ⟨h, h1.2⟩, h1.2⟩
  | encodeUb lo hi =>
    obtain ⟨ha1, ha2⟩ := ha
    rw [ho] at ha2
    obtain ⟨c', e⟩ := C34_no_panic_partial c hr0 (.encodeUbChange ⟨.incl lo, .incl hi⟩) trivial
    have hs := e
    simp only [AdderWorld.step, AdderWorld.encoded] at e
    have hp := BinaryAdder.encodeUbChange_pre c.enc ⟨.incl lo, .incl hi⟩ c.vm c.cls []
    rw [List.append_nil] at hp
    simp only [step, PyEnc.encodeUb, ho, pyRange_ok ha1]
    rw [hp] at e
    rw [hv.vm]
    cases hx : c.enc.encodeUbChange ⟨.incl lo, .incl hi⟩ c.vm [] with
    | none => rw [hx] at e; cases e
    | some x =>
      rw [hx] at e
      obtain ⟨t', vm', cls'⟩ := x
      simp only [preRes, Option.map_some, Option.some.injEq] at e
      subst e
      exact ⟨_, rfl, sim_adder _ rfl ⟨.step c _ _ hr (by show c.lbSince = false; rw [hsi]; exact ha2) (by trivial) hs, rfl, hv.encoded _ _ _ _,
        fun b => or_congr (hu b) Iff.rfl, fun b h1 h2 => hl b h1 fun h => h2 (Or.inl h), hsi⟩⟩
  | encodeLb lo hi =>
    obtain ⟨c', e⟩ := C34_no_panic_partial c hr0 (.encodeLbChange ⟨.incl lo, .incl hi⟩) trivial
    have hs := e
    simp only [AdderWorld.step, AdderWorld.encoded] at e
    have hp := BinaryAdder.encodeLbChange_pre c.enc ⟨.incl lo, .incl hi⟩ c.vm c.cls []
    rw [List.append_nil] at hp
    simp only [step, PyEnc.encodeLb, ho, pyRange_ok ha.1]
    rw [hp] at e
    rw [hv.vm]
    cases hx : c.enc.encodeLbChange ⟨.incl lo, .incl hi⟩ c.vm [] with
    | none => rw [hx] at e; cases e
    | some x =>
      rw [hx] at e
      obtain ⟨t', vm', cls'⟩ := x
      simp only [preRes, Option.map_some, Option.some.injEq] at e
      subst e
      refine ⟨_, rfl, sim_adder _ rfl ⟨.step c _ (.encodeLbChange ⟨.incl lo, .incl hi⟩) hr trivial (by trivial) hs, rfl, hv.encoded _ _ _ _, hu, fun b h1 h2 => ?_, rfl⟩⟩
      rcases h1 with h1 | h1
      · exact Or.inl (hl b h1 h2)
      · exact Or.inr ⟨h1, fun h => h2 ((hu _).2 h)⟩
  | encodeBoth lo hi =>
    obtain ⟨ha1, ha2⟩ := ha
    rw [ho] at ha2
    obtain ⟨c', e⟩ := C34_no_panic_partial c hr0 (.encodeBoth ⟨.incl lo, .incl hi⟩) trivial
    have hs := e
    simp only [AdderWorld.step, AdderWorld.encoded] at e
    have hp := BinaryAdder.encodeBoth_pre c.enc ⟨.incl lo, .incl hi⟩ c.vm c.cls []
    rw [List.append_nil] at hp
    simp only [step, PyEnc.encodeBoth, ho, pyRange_ok ha1]
    rw [hp] at e
    rw [hv.vm]
    cases hx : c.enc.encodeBoth ⟨.incl lo, .incl hi⟩ c.vm [] with
    | none => rw [hx] at e; cases e
    | some x =>
      rw [hx] at e
      obtain ⟨t', vm', cls'⟩ := x
      simp only [preRes, Option.map_some, Option.some.injEq] at e
      subst e
      refine ⟨_, rfl, sim_adder _ rfl ⟨.step c _ _ hr (by show c.lbSince = false; rw [hsi]; exact ha2) (by trivial) hs, rfl, hv.encoded _ _ _ _,
        fun b => or_congr (hu b) Iff.rfl, fun b h1 h2 => ?_, rfl⟩⟩
      rcases h1 with h1 | h1
      · exact Or.inl (hl b h1 fun h => h2 (Or.inl h))
      · exact Or.inr ⟨h1, fun h => h2 (Or.inl ((hu _).2 h)), fun h => h2 (Or.inr h)⟩
  | newVar => exact ⟨_, rfl, hvm _ (newVar_le w.vm)⟩
  | increaseUsed n => exact ⟨_, rfl, hvm _ (increase_le w.vm n)⟩
  | rehash b =>
    unfold allowed at ha
    simp only [ho] at ha
    exact ⟨_, rfl, sim_adder { c with enc := { c.enc with litBuffer := b } } (by simp only [ho, rehashed])
      ⟨.step c _ (.rehash b) hr trivial ha rfl, rfl, ⟨hv.vm, hv.cls, hv.ins, hv.own⟩, hu, hl, hsi⟩⟩

theorem step_dpw {d : Dpw} {c : DpwWorld BasicVM} (ho : w.enc = .dpw d) (h : w.SimDpw d c) (call : PyCall) (ha : w.allowed call) :
    ∃ w', w.step call = some w' ∧ w'.Sim := by
  obtain ⟨hr, rfl, hv, hu, hd⟩ := h
  have hvm : ∀ vm : PyVarManager, ManageVars.nUsed w.vm.vm ≤ ManageVars.nUsed vm.vm → ({ w with vm := vm } : PyEncWorld).Sim := fun vm hle =>
    sim_dpw { c with vm := vm.vm } ho ⟨.step c _ (.useVars vm.vm) hr trivial (by rw [hv.vm] at hle; exact hle) rfl, rfl,
      ⟨rfl, hv.cls, hv.ins, hv.own⟩, hu, hd⟩
  cases call with
  | extend xs => have := ha.2; rw [ho] at this; exact this.elim
  | encodeUb lo hi =>
    have hc : c.Inv False := (dpw_any hr).inv fun ht => ht.elim
    obtain ⟨e', vm', new, h1, h2, h3, h4, h5, h6, h7⟩ := hc.inv.encodeUbChange ⟨.incl lo, .incl hi⟩
    have hr' := DpwWorld.Reach.step c _ (.encodeUbChange ⟨.incl lo, .incl hi⟩) hr trivial trivial
      (by unfold DpwWorld.step; simp only; rw [h1]; rfl)
    have hp := Dpw.encodeUbChange_pre c.dpw ⟨.incl lo, .incl hi⟩ c.vm c.cls []
    rw [List.append_nil, h1] at hp
    obtain ⟨⟨y1, y2, y3⟩, hy, e⟩ := pre_some hp.symm
    simp only [Prod.mk.injEq] at e
    obtain ⟨rfl, rfl, e3⟩ := e
    have e3 := List.append_cancel_left e3
    subst e3
    simp only [step, PyEnc.encodeUb, ho, pyRange_ok ha.1]
    rw [hv.vm, hy]
    exact ⟨_, rfl, sim_dpw _ rfl ⟨hr', rfl, hv.encoded _ _ _ _, fun b hb => hb.imp (hu b) id, h6.trans hd⟩⟩
  | encodeLb lo hi => have := ha.2; rw [ho] at this; exact this.elim
  | encodeBoth lo hi => have := ha.2; rw [ho] at this; exact this.elim
  | newVar => exact ⟨_, rfl, hvm _ (newVar_le w.vm)⟩
  | increaseUsed n => exact ⟨_, rfl, hvm _ (increase_le w.vm n)⟩
  | rehash b => unfold allowed at ha; simp only [ho] at ha

/-- Allowed calls do not panic, and lead to states that show states of the encoder. -/
theorem step_sim (h : w.Sim) (call : PyCall) (ha : w.allowed call) : ∃ w', w.step call = some w' ∧ w'.Sim := by
  unfold Sim at h
  cases ho : w.enc with
  | tot t => rw [ho] at h; obtain ⟨c, h⟩ := h; exact step_tot ho h call ha
  | gte t => rw [ho] at h; obtain ⟨c, h⟩ := h; exact step_gte ho h call ha
  | adder t => rw [ho] at h; obtain ⟨c, h⟩ := h; exact step_adder ho h call ha
  | dpw t => rw [ho] at h; obtain ⟨c, h⟩ := h; exact step_dpw ho h call ha

theorem new_precDiv {lits : List (Lit × Nat)} {d : Dpw} (h : Dpw.new lits = some d) : d.precDiv = 1 := by
  unfold Dpw.new Dpw.ofMap at h
  split at h
  · cases h
  · cases h; rfl

theorem Reach.sim (h : Reach w) : w.Sim := by
  induction h with
  | tot lits n h => exact sim_tot (CardWorld.start lits ⟨n⟩) rfl ⟨.start lits (⟨n⟩ : BasicVM) h, rfl, ⟨rfl, rfl, rfl, rfl⟩, fun _ => Iff.rfl, fun _ => Iff.rfl⟩
  | gte lits n hn h => exact sim_gte (GteWorld.start lits ⟨n⟩) rfl ⟨.start lits (⟨n⟩ : BasicVM) hn h, rfl, ⟨rfl, rfl, rfl, rfl⟩⟩
  | adder lits n hn h =>
    exact sim_adder (AdderWorld.start lits ⟨n⟩) rfl ⟨.start lits (⟨n⟩ : BasicVM) hn h, rfl, ⟨rfl, rfl, rfl, rfl⟩, fun _ => Iff.rfl,
      fun _ h => h.elim, rfl⟩
  | dpw lits n e hn h he =>
    unfold PyEnc.newDpw at he
    cases hd : Dpw.new lits with
    | none => rw [hd] at he; cases he
    | some d =>
      rw [hd] at he
      cases he
      exact sim_dpw ⟨d, ⟨n⟩, [], lits, [], fun _ => False⟩ rfl ⟨.start lits (⟨n⟩ : BasicVM) d hn h hd, rfl, ⟨rfl, rfl, rfl, rfl⟩, fun _ h => h, new_precDiv hd⟩
  | step w w' call _ ha hs ih =>
    obtain ⟨w'', h1, h2⟩ := step_sim ih call ha
    rw [hs] at h1; cases h1; exact h2

end PyEncWorld
end RustSat
