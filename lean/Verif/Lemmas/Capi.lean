import Verif.Spec.Capi
import Verif.Props.Totalizer
import Verif.Props.Gte
import Verif.Props.Adder
import Verif.Props.Dpw
import Verif.Lemmas.Am1
/-
The C-API: reading callbacks as clauses, and states of C programs as states of the encoders.
-/
namespace RustSat
namespace Capi
open Card

instance : LawfulVM VarManager where
  newVar_fst _ := rfl
  newVar_snd _ := rfl
  increase m v := by simp only [ManageVars.increaseNextFree, ManageVars.nUsed]; split <;> simp <;> omega
  increase_fst m v := by simp only [ManageVars.increaseNextFree, ManageVars.nUsed]; split <;> simp <;> omega
  combine m o := rfl
  forget _ _ := rfl
  maxVar _ := rfl

/-- The assignment of the encoders. -/
def down (m : Nat → Bool) : Asg := fun v => m (v + 1)

theorem ipasir_ne_zero (l : Lit) : ipasir l ≠ 0 := by unfold ipasir; split <;> omega

theorem natAbs_ipasir (l : Lit) : (ipasir l).natAbs = l.var + 1 := by unfold ipasir; split <;> omega

theorem ctrue_ipasir (m : Nat → Bool) (l : Lit) : ctrue m (ipasir l) = l.holds (down m) := by
  unfold ctrue Lit.holds down
  rw [natAbs_ipasir]
  by_cases h : l.isNeg = true
  · rw [if_pos h, if_neg (by unfold ipasir; rw [if_pos h]; omega)]
  · rw [if_neg h, if_pos (by unfold ipasir; rw [if_neg h]; omega)]

theorem readClauses_clause (c : List Lit) (zs : List Int) :
    readClauses (c.map ipasir ++ 0 :: zs) = (c.map ipasir :: (readClauses zs).1, (readClauses zs).2) := by
  induction c with
  | nil => simp [readClauses]
  | cons l c ih =>
    simp only [List.map_cons, List.cons_append, readClauses]
    rw [ih, if_neg (ipasir_ne_zero l)]

theorem ipasir_inj {l l' : Lit} (h : ipasir l = ipasir l') : l = l' := by
  have h1 := natAbs_ipasir l
  have h2 := natAbs_ipasir l'
  rw [h] at h1
  have h3 : l.var = l'.var := by omega
  have h4 : l.isNeg = l'.isNeg := by
    unfold ipasir at h
    cases hl : l.isNeg <;> cases hl' : l'.isNeg <;> rw [hl, hl'] at h <;> simp at h <;> first | rfl | omega
  exact Lit.ext_var h3 h4

/-- Reading the callbacks. -/
theorem readClauses_callbacks (cls : ClauseSet) : readClauses (callbacks cls) = (cls.map (·.map ipasir), []) := by
  induction cls with
  | nil => rfl
  | cons c cls ih =>
    have : callbacks (c :: cls) = c.map ipasir ++ 0 :: callbacks cls := by simp [callbacks]
    rw [this, readClauses_clause, ih]
    rfl

theorem logTrue_callbacks (m : Nat → Bool) (cls : ClauseSet) : logTrue m (callbacks cls) ↔ ClauseSet.sat (down m) cls := by
  unfold logTrue
  rw [readClauses_callbacks]
  constructor
  · intro ⟨_, h⟩ c hc
    obtain ⟨z, hz, h1⟩ := h (c.map ipasir) (List.mem_map.2 ⟨c, hc, rfl⟩)
    obtain ⟨l, hl, rfl⟩ := List.mem_map.1 hz
    exact ⟨l, hl, by rw [← ctrue_ipasir]; exact h1⟩
  · intro h
    refine ⟨rfl, fun c hc => ?_⟩
    obtain ⟨c, hc', rfl⟩ := List.mem_map.1 hc
    obtain ⟨l, hl, h1⟩ := h c hc'
    exact ⟨ipasir l, List.mem_map.2 ⟨l, hl, rfl⟩, by rw [ctrue_ipasir]; exact h1⟩

theorem cube_ipasir (m : Nat → Bool) (A : List Lit) : (∀ z ∈ A.map ipasir, ctrue m z = true) ↔ cubeSat (down m) A := by
  constructor
  · intro h l hl
    rw [← ctrue_ipasir]; exact h _ (List.mem_map.2 ⟨l, hl, rfl⟩)
  · intro h z hz
    obtain ⟨l, hl, rfl⟩ := List.mem_map.1 hz
    rw [ctrue_ipasir]; exact h l hl

theorem csum_ipasir (m : Nat → Bool) (ins : List (Lit × Nat)) :
    csum m (ins.map fun x => (ipasir x.1, x.2)) = wsum (down m) ins := by
  induction ins with
  | nil => rfl
  | cons x ins ih =>
    unfold csum at ih ⊢
    simp only [List.map_cons, List.sum_cons, wsum, ctrue_ipasir]
    rw [ih]

/-- The assignment of a C program. -/
def up (z : Bool) (m : Asg) : Nat → Bool
  | 0 => z
  | v + 1 => m v

theorem down_up (z : Bool) (m : Asg) : down (up z m) = m := rfl

/-- From the encoders to the C-API. -/
theorem enforces_of {cls : ClauseSet} {own : List Nat} {ins : List (Lit × Nat)} {P : Nat → Prop} {A : List Lit}
    (h1 : ∀ m, ClauseSet.sat m cls → cubeSat m A → P (wsum m ins))
    (h2 : ∀ a, P (wsum a ins) → ∃ m, (∀ v, v ∉ own → m v = a v) ∧ ClauseSet.sat m cls ∧ cubeSat m A) :
    Enforces (callbacks cls) (own.map (· + 1)) (ins.map fun x => (ipasir x.1, x.2)) P (A.map ipasir) := by
  refine ⟨fun m hm hA => ?_, fun a ha => ?_⟩
  · rw [logTrue_callbacks] at hm
    rw [cube_ipasir] at hA
    rw [csum_ipasir]
    exact h1 _ hm hA
  · rw [csum_ipasir] at ha
    obtain ⟨m, m1, m2, m3⟩ := h2 _ ha
    refine ⟨up (a 0) m, fun v hv => ?_, ?_, ?_⟩
    · cases v with
      | zero => rfl
      | succ v => exact m1 v fun h => hv (List.mem_map.2 ⟨v, h, rfl⟩)
    · rw [logTrue_callbacks, down_up]; exact m2
    · rw [cube_ipasir, down_up]; exact m3

theorem fromIpasir_ok {z : Int} {l : Lit} (h : Lit.fromIpasir z = .ok l) : ipasir l = z ∧ l.var + 1 = z.natAbs ∧ z ≠ 0 := by
  unfold Lit.fromIpasir at h
  by_cases h0 : z = 0
  · rw [if_pos h0] at h; cases h
  · rw [if_neg h0] at h
    unfold Lit.newWithError at h
    split at h
    · cases h
    · cases h
      refine ⟨?_, by simp; omega, h0⟩
      unfold ipasir
      simp only [Lit.var_mk', Lit.isNeg_mk', decide_eq_true_eq]
      split <;> omega

theorem inclRange_ok (bld : Build) {lo hi : Nat} (h1 : lo ≤ hi) (h2 : hi < sizeMax) :
    inclRange bld lo hi = some ⟨.incl lo, .incl hi⟩ := by
  unfold inclRange
  rw [if_neg (by simpa using h1), if_pos h2]

theorem contains_incl {lo hi b : Nat} : (⟨.incl lo, .incl hi⟩ : URange).contains b ↔ lo ≤ b ∧ b ≤ hi := Iff.rfl

theorem handedOut_up (n n' : Nat) :
    (CardWorld.handedOut (⟨n⟩ : VarManager) ⟨n'⟩).map (· + 1) = List.range' (n + 1) (n' - n) := by
  show (List.range' n (n' - n)).map (· + 1) = _
  rw [show (fun x : Nat => x + 1) = (fun x => 1 + x) from funext fun x => Nat.add_comm x 1, List.map_add_range', Nat.add_comm 1 n]

namespace World

/-- A state of the C program shows a state of an encoder. -/
structure View (w : World) (vm : VarManager) (cls : ClauseSet) (ins : List (Lit × Nat)) (own : List Nat) : Prop where
  vm : vm = ⟨w.nVars⟩
  cls : w.cls = cls
  ins : w.ins = ins.map fun x => (ipasir x.1, x.2)
  own : w.own = own.map (· + 1)

structure SimTot (w : World) (t : Totalizer) (c : CardWorld VarManager) : Prop where
  reach : CardWorld.Reach anyOp c
  enc : c.tot = t
  view : w.View c.vm c.cls (c.ins.map fun l => (l, 1)) c.own
  ub : ∀ b, w.ub b → c.ub b
  lb : ∀ b, w.lb b → c.lb b
  div : w.div = 0

structure SimGte (w : World) (g : Gte) (c : GteWorld VarManager) : Prop where
  reach : GteWorld.Reach anyGteOp c
  enc : c.gte = g
  view : w.View c.vm c.cls c.ins c.own
  div : w.div = 0

structure SimAdder (w : World) (a : BinaryAdder) (c : AdderWorld VarManager) : Prop where
  reach : AdderWorld.Reach AdderWorld.ubSafe c
  enc : c.enc = a
  view : w.View c.vm c.cls c.ins c.own
  ub : ∀ b, w.ub b ↔ c.ub b
  lb : ∀ b, w.lb b → ¬ w.ub (b - 1) → c.lb b
  since : c.lbSince = w.lbUsed
  div : w.div = 0

structure SimDpw (w : World) (d : Dpw) (c : DpwWorld VarManager) : Prop where
  reach : DpwWorld.Reach anyDpwOp c
  enc : c.dpw = d
  view : w.View c.vm c.cls c.ins c.own
  ub : ∀ b, w.ub b → c.ub b
  div : d.precDiv = w.div

/-- Every state of the C program shows a reachable state of the encoder. -/
def Sim (w : World) : Prop :=
  match w.obj with
  | .tot t => ∃ c, w.SimTot t c
  | .gte g => ∃ c, w.SimGte g c
  | .adder a => ∃ c, w.SimAdder a c
  | .dpw d => ∃ c, w.SimDpw d c

theorem sim_tot {w : World} {t : Totalizer} (c : CardWorld VarManager) (ho : w.obj = .tot t) (h : w.SimTot t c) : w.Sim := by
  unfold Sim; rw [ho]; exact ⟨c, h⟩

theorem sim_gte {w : World} {g : Gte} (c : GteWorld VarManager) (ho : w.obj = .gte g) (h : w.SimGte g c) : w.Sim := by
  unfold Sim; rw [ho]; exact ⟨c, h⟩

theorem sim_adder {w : World} {a : BinaryAdder} (c : AdderWorld VarManager) (ho : w.obj = .adder a) (h : w.SimAdder a c) : w.Sim := by
  unfold Sim; rw [ho]; exact ⟨c, h⟩

theorem sim_dpw {w : World} {d : Dpw} (c : DpwWorld VarManager) (ho : w.obj = .dpw d) (h : w.SimDpw d c) : w.Sim := by
  unfold Sim; rw [ho]; exact ⟨c, h⟩

theorem start_sim {o : Obj} (n : Nat) (h : o ∈ [Obj.totNew, Obj.gteNew, Obj.adderNew, Obj.dpwNew]) : (start o n).Sim := by
  simp only [List.mem_cons, List.not_mem_nil, or_false] at h
  rcases h with rfl | rfl | rfl | rfl
  · exact sim_tot (CardWorld.start [] ⟨n⟩) rfl ⟨.start [] (⟨n⟩ : VarManager) (by simp), rfl, ⟨rfl, rfl, rfl, rfl⟩, fun _ h => h, fun _ h => h, rfl⟩
  · exact sim_gte (GteWorld.start [] ⟨n⟩) rfl ⟨.start [] (⟨n⟩ : VarManager) (by simp) (by simp), rfl, ⟨rfl, rfl, rfl, rfl⟩, rfl⟩
  · exact sim_adder (AdderWorld.start [] ⟨n⟩) rfl ⟨.start [] (⟨n⟩ : VarManager) (by simp) (by simp), rfl, ⟨rfl, rfl, rfl, rfl⟩, fun _ => Iff.rfl,
      fun _ h => h.elim, rfl, rfl⟩
  · exact sim_dpw ⟨Dpw.default, ⟨n⟩, [], [], [], fun _ => False⟩ rfl ⟨.default (⟨n⟩ : VarManager), rfl, ⟨rfl, rfl, rfl, rfl⟩, fun _ h => h, rfl⟩

theorem View.own_iff {w : World} {vm : VarManager} {cls : ClauseSet} {ins : List (Lit × Nat)} {own : List Nat}
    (h : w.View vm cls ins own) {v : Nat} : v + 1 ∈ w.own ↔ v ∈ own := by
  rw [h.own]
  constructor
  · intro hv
    obtain ⟨x, hx, h1⟩ := List.mem_map.1 hv
    have : x = v := by simpa using h1
    exact this ▸ hx
  · exact fun hv => List.mem_map.2 ⟨v, hv, rfl⟩

theorem View.lit_iff {w : World} {vm : VarManager} {cls : ClauseSet} {ins : List (Lit × Nat)} {own : List Nat}
    (h : w.View vm cls ins own) {l : Lit} : ipasir l ∈ w.ins.map (·.1) ↔ l ∈ ins.map (·.1) := by
  rw [h.ins, List.map_map]
  constructor
  · intro hl
    obtain ⟨x, hx, h1⟩ := List.mem_map.1 hl
    exact ipasir_inj h1 ▸ List.mem_map.2 ⟨x, hx, rfl⟩
  · intro hl
    obtain ⟨x, hx, h1⟩ := List.mem_map.1 hl
    exact List.mem_map.2 ⟨x, hx, by simp [h1]⟩

theorem View.encoded {w : World} {vm vm' : VarManager} {cls cls' : ClauseSet} {ins : List (Lit × Nat)} {own : List Nat}
    (h : w.View vm cls ins own) (o : Obj) (ub lb : Nat → Prop) (lu : Bool) :
    ({ w with obj := o, nVars := vm'.nVarsUsed, cls := cls', own := w.own ++ List.range' (w.nVars + 1) (vm'.nVarsUsed - w.nVars),
              ub := ub, lb := lb, lbUsed := lu } : World).View vm' cls' ins (own ++ CardWorld.handedOut vm vm') := by
  refine ⟨rfl, rfl, h.ins, ?_⟩
  show w.own ++ _ = _
  rw [List.map_append, ← h.own, h.vm, ← handedOut_up w.nVars vm'.nVarsUsed]

theorem View.add {w : World} {vm : VarManager} {cls : ClauseSet} {ins : List (Lit × Nat)} {own : List Nat}
    (h : w.View vm cls ins own) (o : Obj) {lit : Int} {l : Lit} (hl : ipasir l = lit) (wt : Nat) (ub lb : Nat → Prop) :
    ({ w with obj := o, ins := w.ins ++ [(lit, wt)], ub := ub, lb := lb } : World).View vm cls (ins ++ [(l, wt)]) own := by
  refine ⟨h.vm, h.cls, ?_, h.own⟩
  show w.ins ++ _ = _
  rw [List.map_append, ← h.ins]
  simp [hl]

section
variable {w : World} {bld : Build}

/-- An integer that is not a literal is refused. -/
theorem step_add_bad {lit : Int} {wt : Nat} (h : ∀ l, Lit.fromIpasir lit ≠ .ok l) : w.step bld (.add lit wt) = some w := by
  have : w.obj.add lit wt = (.invalidLiteral, w.obj) := by
    unfold Obj.add
    cases hf : Lit.fromIpasir lit with
    | ok l => exact absurd hf (h l)
    | err e => rfl
    | panic => rfl
  unfold step
  simp only
  rw [this]

theorem step_add_ok {lit : Int} {wt : Nat} {o : Obj} (h : w.obj.add lit wt = (.ok, o)) :
    w.step bld (.add lit wt) = some { w with obj := o, ins := w.ins ++ [(lit, wt)], ub := fun _ => False, lb := fun _ => False } := by
  unfold step
  simp only
  rw [h]

theorem step_tot {t : Totalizer} {c : CardWorld VarManager} (ho : w.obj = .tot t) (h : w.SimTot t c) (call : Call) (ha : w.allowed call) :
    ∃ w', w.step bld call = some w' ∧ w'.Sim := by
  obtain ⟨hr, rfl, hv, hu, hl, hd⟩ := h
  have hsame : w.Sim := sim_tot c ho ⟨hr, rfl, hv, hu, hl, hd⟩
  cases call with
  | add lit wt =>
    by_cases hf : ∃ l, Lit.fromIpasir lit = .ok l
    · obtain ⟨l, hf⟩ := hf
      obtain ⟨e1, e2, e3⟩ := fromIpasir_ok hf
      rcases ha with ha | ⟨a1, a2, a3, a4⟩
      · exact absurd ha e3
      · rw [ho] at a4
        simp only at a4
        subst a4
        rw [step_add_ok (o := .tot (c.tot.extend [l])) (by unfold Obj.add; rw [hf, ho])]
        refine ⟨_, rfl, ?_⟩
        refine sim_tot { c with tot := c.tot.extend [l], ins := c.ins ++ [l], ub := fun b => c.ub b ∧ [l] = [], lb := fun b => c.lb b ∧ [l] = [] }
          rfl ⟨.step c _ (.add [l]) hr trivial ?_ rfl, rfl, ?_, fun _ h => h.elim, fun _ h => h.elim, hd⟩
        · intro x hx
          have hx : x = l := by simpa using hx
          subst hx
          refine ⟨?_, fun h => a2 ?_⟩
          · rw [hv.vm]; show x.var < w.nVars; omega
          · rw [← e2]; exact hv.own_iff.2 h
        · have := hv.add (.tot (c.tot.extend [l])) e1 1 (fun _ => False) (fun _ => False)
          show View _ c.vm c.cls ((c.ins ++ [l]).map fun l => (l, 1)) c.own
          rw [List.map_append]
          exact this
    · exact ⟨w, step_add_bad fun l hl => hf ⟨l, hl⟩, hsame⟩
  | reserve =>
    obtain ⟨c', e, hr'⟩ := C28_no_panic c hr .reserve trivial
    simp only [CardWorld.step, CardWorld.encoded] at e
    simp only [step, Obj.reserve, ho]
    rw [← hv.vm]
    cases hx : c.tot.reserve c.vm with
    | none => rw [hx] at e; cases e
    | some x =>
      rw [hx] at e
      obtain ⟨t', vm'⟩ := x
      simp only [Option.map_some, Option.some.injEq] at e
      subst e
      exact ⟨_, rfl, sim_tot _ rfl ⟨hr', rfl, hv.cls ▸ hv.encoded _ _ _ _, hu, hl, hd⟩⟩
  | encodeUb lo hi =>
    obtain ⟨a1, a2, -⟩ := ha
    obtain ⟨c', e, hr'⟩ := C28_no_panic c hr (.encodeUbChange ⟨.incl lo, .incl hi⟩) trivial
    simp only [CardWorld.step, CardWorld.encoded] at e
    simp only [step, Obj.encodeUb, ho, inclRange_ok bld a1 a2]
    rw [← hv.vm, hv.cls]
    cases hx : c.tot.encodeUbChange ⟨.incl lo, .incl hi⟩ c.vm c.cls with
    | none => rw [hx] at e; cases e
    | some x =>
      rw [hx] at e
      obtain ⟨t', vm', cls'⟩ := x
      simp only [Option.map_some, Option.some.injEq] at e
      subst e
      exact ⟨_, rfl, sim_tot _ rfl ⟨hr', rfl, hv.encoded _ _ _ _, fun b hb => hb.imp (hu b) id, hl, hd⟩⟩
  | encodeLb lo hi =>
    obtain ⟨a1, a2, -⟩ := ha
    obtain ⟨c', e, hr'⟩ := C28_no_panic c hr (.encodeLbChange ⟨.incl lo, .incl hi⟩) trivial
    simp only [CardWorld.step, CardWorld.encoded] at e
    simp only [step, Obj.encodeLb, ho, inclRange_ok bld a1 a2]
    rw [← hv.vm, hv.cls]
    cases hx : c.tot.encodeLbChange ⟨.incl lo, .incl hi⟩ c.vm c.cls with
    | none => rw [hx] at e; cases e
    | some x =>
      rw [hx] at e
      obtain ⟨t', vm', cls'⟩ := x
      simp only [Option.map_some, Option.some.injEq] at e
      subst e
      exact ⟨_, rfl, sim_tot _ rfl ⟨hr', rfl, hv.encoded _ _ _ _, hu, fun b hb => hb.imp (hl b) id, hd⟩⟩
  | setPrecision d => unfold allowed at ha; simp only [ho] at ha
  | useVars n =>
    refine ⟨_, rfl, sim_tot { c with vm := ⟨n⟩ } ho ⟨.step c _ (.useVars ⟨n⟩) hr trivial ?_ rfl, rfl, ⟨rfl, hv.cls, hv.ins, hv.own⟩, hu, hl, hd⟩⟩
    show ManageVars.nUsed c.vm ≤ n
    rw [hv.vm]; exact ha
  | rehash b => unfold allowed at ha; simp only [ho] at ha

theorem step_gte {g : Gte} {c : GteWorld VarManager} (ho : w.obj = .gte g) (h : w.SimGte g c) (call : Call) (ha : w.allowed call) :
    ∃ w', w.step bld call = some w' ∧ w'.Sim := by
  obtain ⟨hr, rfl, hv, hd⟩ := h
  have hsame : w.Sim := sim_gte c ho ⟨hr, rfl, hv, hd⟩
  cases call with
  | add lit wt =>
    by_cases hf : ∃ l, Lit.fromIpasir lit = .ok l
    · obtain ⟨l, hf⟩ := hf
      obtain ⟨e1, e2, e3⟩ := fromIpasir_ok hf
      rcases ha with ha | ⟨a1, a2, a3, -⟩
      · exact absurd ha e3
      · rw [step_add_ok (o := .gte (c.gte.extend [(l, wt)])) (by unfold Obj.add; rw [hf, ho])]
        refine ⟨_, rfl, ?_⟩
        refine sim_gte { c with gte := c.gte.extend [(l, wt)], ins := c.ins ++ [(l, wt)], ub := fun b => c.ub b ∧ [(l, wt)] = [] }
          rfl ⟨.step c _ (.add [(l, wt)]) hr trivial ?_ rfl, rfl, hv.add _ e1 wt _ _, hd⟩
        intro x hx
        have hx : x = (l, wt) := by simpa using hx
        subst hx
        refine ⟨a3, ?_, fun h => a2 ?_⟩
        · rw [hv.vm]; show l.var < w.nVars; omega
        · rw [← e2]; exact hv.own_iff.2 h
    · exact ⟨w, step_add_bad fun l hl => hf ⟨l, hl⟩, hsame⟩
  | reserve =>
    obtain ⟨c', e, hr'⟩ := C33_no_panic c hr .reserve trivial
    simp only [GteWorld.step, GteWorld.encoded] at e
    simp only [step, Obj.reserve, ho]
    rw [← hv.vm]
    cases hx : c.gte.reserve c.vm with
    | none => rw [hx] at e; cases e
    | some x =>
      rw [hx] at e
      obtain ⟨t', vm'⟩ := x
      simp only [Option.map_some, Option.some.injEq] at e
      subst e
      exact ⟨_, rfl, sim_gte _ rfl ⟨hr', rfl, hv.cls ▸ hv.encoded _ _ _ _, hd⟩⟩
  | encodeUb lo hi =>
    obtain ⟨a1, a2, -⟩ := ha
    obtain ⟨c', e, hr'⟩ := C33_no_panic c hr (.encodeUbChange ⟨.incl lo, .incl hi⟩) trivial
    simp only [GteWorld.step, GteWorld.encoded] at e
    simp only [step, Obj.encodeUb, ho, inclRange_ok bld a1 a2]
    rw [← hv.vm, hv.cls]
    cases hx : c.gte.encodeUbChange ⟨.incl lo, .incl hi⟩ c.vm c.cls with
    | none => rw [hx] at e; cases e
    | some x =>
      rw [hx] at e
      obtain ⟨t', vm', cls'⟩ := x
      simp only [Option.map_some, Option.some.injEq] at e
      subst e
      exact ⟨_, rfl, sim_gte _ rfl ⟨hr', rfl, hv.encoded _ _ _ _, hd⟩⟩
  | encodeLb lo hi => unfold allowed at ha; simp only [ho, and_false] at ha
  | setPrecision d => unfold allowed at ha; simp only [ho] at ha
  | useVars n =>
    refine ⟨_, rfl, sim_gte { c with vm := ⟨n⟩ } ho ⟨.step c _ (.useVars ⟨n⟩) hr trivial ?_ rfl, rfl, ⟨rfl, hv.cls, hv.ins, hv.own⟩, hd⟩⟩
    show ManageVars.nUsed c.vm ≤ n
    rw [hv.vm]; exact ha
  | rehash b =>
    unfold allowed at ha; simp only [ho] at ha
    refine ⟨_, rfl, sim_gte { c with gte := { c.gte with litBuffer := b } } (by simp only [ho, rehashed])
      ⟨.step c _ (.rehash b) hr trivial ha rfl, rfl, ⟨hv.vm, hv.cls, hv.ins, hv.own⟩, hd⟩⟩

theorem step_adder {a : BinaryAdder} {c : AdderWorld VarManager} (ho : w.obj = .adder a) (h : w.SimAdder a c) (call : Call) (ha : w.allowed call) :
    ∃ w', w.step bld call = some w' ∧ w'.Sim := by
  obtain ⟨hr, rfl, hv, hu, hl, hs, hd⟩ := h
  have hsame : w.Sim := sim_adder c ho ⟨hr, rfl, hv, hu, hl, hs, hd⟩
  have hnp : ∀ op, c.allowed op → ∃ c', c.step op = some c' := fun op ha => by
    obtain ⟨c', e, -⟩ := AdderWorld.step_spec (t := False) c (hr.inv fun ht => ht.elim) op ha fun ht => ht.elim
    exact ⟨c', e⟩
  cases call with
  | add lit wt =>
    by_cases hf : ∃ l, Lit.fromIpasir lit = .ok l
    · obtain ⟨l, hf⟩ := hf
      obtain ⟨e1, e2, e3⟩ := fromIpasir_ok hf
      rcases ha with ha | ⟨a1, a2, a3, -⟩
      · exact absurd ha e3
      · rw [step_add_ok (o := .adder (c.enc.extend [(l, wt)])) (by unfold Obj.add; rw [hf, ho])]
        refine ⟨_, rfl, ?_⟩
        refine sim_adder { c with enc := c.enc.extend [(l, wt)], ins := c.ins ++ [(l, wt)], ub := fun b => c.ub b ∧ [(l, wt)] = [],
                                  lb := fun b => c.lb b ∧ [(l, wt)] = [] }
          rfl ⟨.step c _ (.add [(l, wt)]) hr trivial ?_ rfl, rfl, hv.add _ e1 wt _ _, fun _ => by simp, fun _ h => h.elim, hs, hd⟩
        intro x hx
        have hx : x = (l, wt) := by simpa using hx
        subst hx
        refine ⟨a3, ?_, fun h => a2 ?_⟩
        · rw [hv.vm]; show l.var < w.nVars; omega
        · rw [← e2]; exact hv.own_iff.2 h
    · exact ⟨w, step_add_bad fun l hl => hf ⟨l, hl⟩, hsame⟩
  | reserve => unfold allowed at ha; simp only [ho] at ha
  | encodeUb lo hi =>
    obtain ⟨a1, a2, a3⟩ := ha
    rw [ho] at a3
    simp only at a3
    obtain ⟨c', e⟩ := hnp (.encodeUbChange ⟨.incl lo, .incl hi⟩) trivial
    have hr' := AdderWorld.Reach.step c c' _ hr (show AdderWorld.ubSafe c (.encodeUbChange ⟨.incl lo, .incl hi⟩) from hs.trans a3) trivial e
    simp only [AdderWorld.step, AdderWorld.encoded] at e
    simp only [step, Obj.encodeUb, ho, inclRange_ok bld a1 a2]
    rw [← hv.vm, hv.cls]
    cases hx : c.enc.encodeUbChange ⟨.incl lo, .incl hi⟩ c.vm c.cls with
    | none => rw [hx] at e; cases e
    | some x =>
      rw [hx] at e
      obtain ⟨t', vm', cls'⟩ := x
      simp only [Option.map_some, Option.some.injEq] at e
      subst e
      refine ⟨_, rfl, sim_adder _ rfl ⟨hr', rfl, hv.encoded _ _ _ _, fun b => or_congr (hu b) Iff.rfl, fun b h1 h2 => ?_, hs, hd⟩⟩
      exact hl b h1 fun h3 => h2 (Or.inl h3)
  | encodeLb lo hi =>
    obtain ⟨a1, a2, -⟩ := ha
    obtain ⟨c', e⟩ := hnp (.encodeLbChange ⟨.incl lo, .incl hi⟩) trivial
    have hr' := AdderWorld.Reach.step c c' _ hr (show AdderWorld.ubSafe c (.encodeLbChange ⟨.incl lo, .incl hi⟩) from trivial) trivial e
    simp only [AdderWorld.step, AdderWorld.encoded] at e
    simp only [step, Obj.encodeLb, ho, inclRange_ok bld a1 a2]
    rw [← hv.vm, hv.cls]
    cases hx : c.enc.encodeLbChange ⟨.incl lo, .incl hi⟩ c.vm c.cls with
    | none => rw [hx] at e; cases e
    | some x =>
      rw [hx] at e
      obtain ⟨t', vm', cls'⟩ := x
      simp only [Option.map_some, Option.some.injEq] at e
      subst e
      refine ⟨_, rfl, sim_adder _ rfl ⟨hr', rfl, hv.encoded _ _ _ _, hu, fun b h1 h2 => ?_, rfl, hd⟩⟩
      rcases h1 with h1 | h1
      · exact Or.inl (hl b h1 h2)
      · exact Or.inr ⟨h1, fun h3 => h2 ((hu _).2 h3)⟩
  | setPrecision d => unfold allowed at ha; simp only [ho] at ha
  | useVars n =>
    refine ⟨_, rfl, sim_adder { c with vm := ⟨n⟩ } ho ⟨.step c _ (.useVars ⟨n⟩) hr trivial ?_ rfl, rfl, ⟨rfl, hv.cls, hv.ins, hv.own⟩, hu, hl, hs, hd⟩⟩
    show ManageVars.nUsed c.vm ≤ n
    rw [hv.vm]; exact ha
  | rehash b =>
    unfold allowed at ha; simp only [ho] at ha
    refine ⟨_, rfl, sim_adder { c with enc := { c.enc with litBuffer := b } } (by simp only [ho, rehashed])
      ⟨.step c _ (.rehash b) hr trivial ha rfl, rfl, ⟨hv.vm, hv.cls, hv.ins, hv.own⟩, hu, hl, hs, hd⟩⟩

theorem step_dpw {d : Dpw} {c : DpwWorld VarManager} (ho : w.obj = .dpw d) (h : w.SimDpw d c) (call : Call) (ha : w.allowed call) :
    ∃ w', w.step bld call = some w' ∧ w'.Sim := by
  obtain ⟨hr, rfl, hv, hu, hd⟩ := h
  have hsame : w.Sim := sim_dpw c ho ⟨hr, rfl, hv, hu, hd⟩
  have hc : c.Inv False := hr.inv fun ht => ht.elim
  cases call with
  | add lit wt =>
    by_cases hf : ∃ l, Lit.fromIpasir lit = .ok l
    · obtain ⟨l, hf⟩ := hf
      obtain ⟨e1, e2, e3⟩ := fromIpasir_ok hf
      rcases ha with ha | ⟨a1, a2, a3, a4⟩
      · exact absurd ha e3
      · rw [ho] at a4
        simp only at a4
        have hal : c.allowed (.add l wt) := by
          refine ⟨a3, ?_, fun h => a2 ?_, fun h => a4 ?_⟩
          · rw [hv.vm]; show l.var < w.nVars; omega
          · rw [← e2]; exact hv.own_iff.2 h
          · rw [← e1]; exact hv.lit_iff.2 h
        cases hx : c.dpw.addInput l wt with
        | none =>
          have : w.step bld (.add lit wt) = some w := by
            have : w.obj.add lit wt = (.invalidState, w.obj) := by unfold Obj.add; rw [hf, ho]; simp only; rw [hx]
            unfold step; simp only; rw [this]
          exact ⟨w, this, hsame⟩
        | some d' =>
          rw [step_add_ok (o := .dpw d') (by unfold Obj.add; rw [hf, ho]; simp only; rw [hx])]
          refine ⟨_, rfl, sim_dpw { c with dpw := d', ins := c.ins ++ [(l, wt)], ub := fun _ => False } rfl
            ⟨.step c _ (.add l wt) hr trivial hal (by unfold DpwWorld.step; simp only; rw [hx]), rfl, hv.add _ e1 wt _ _, fun _ h => h.elim, ?_⟩⟩
          unfold Dpw.addInput at hx
          split at hx
          · cases hx
          · cases hx; exact hd
    · exact ⟨w, step_add_bad fun l hl => hf ⟨l, hl⟩, hsame⟩
  | reserve =>
    obtain ⟨e', vm', h1, h2, h3, h4, h5, h6⟩ := hc.inv.reserve
    have hr' := DpwWorld.Reach.step c _ .reserve hr trivial trivial (by unfold DpwWorld.step; simp only; rw [h1]; rfl)
    simp only [step, Obj.reserve, ho]
    rw [← hv.vm, h1]
    exact ⟨_, rfl, sim_dpw _ rfl ⟨hr', rfl, hv.cls ▸ hv.encoded _ _ _ _, hu, h5.trans hd⟩⟩
  | encodeUb lo hi =>
    obtain ⟨a1, a2, -⟩ := ha
    obtain ⟨e', vm', new, h1, h2, h3, h4, h5, h6, h7⟩ := hc.inv.encodeUbChange ⟨.incl lo, .incl hi⟩
    have hr' := DpwWorld.Reach.step c _ (.encodeUbChange ⟨.incl lo, .incl hi⟩) hr trivial trivial
      (by unfold DpwWorld.step; simp only; rw [h1]; rfl)
    simp only [step, Obj.encodeUb, ho, inclRange_ok bld a1 a2]
    rw [← hv.vm, hv.cls, h1]
    exact ⟨_, rfl, sim_dpw _ rfl ⟨hr', rfl, hv.encoded _ _ _ _, fun b hb => hb.imp (hu b) id, h6.trans hd⟩⟩
  | encodeLb lo hi => unfold allowed at ha; simp only [ho, and_false] at ha
  | setPrecision p =>
    unfold allowed at ha
    simp only [ho] at ha
    have hal : c.allowed (.setPrecision p) := by
      rcases ha with ha | ha | ha | ha
      · refine Or.inl ⟨ha.1, ha.2.imp id ?_⟩
        rintro ⟨x, hx, h1⟩
        rw [hv.ins] at hx
        obtain ⟨y, hy, rfl⟩ := List.mem_map.1 hx
        exact ⟨y, hy, h1⟩
      · refine Or.inr (Or.inl ?_)
        cases hx : c.dpw.setPrecision p with
        | ok d' => exact absurd (by simp only [Obj.setPrecision, hx]) ha
        | err e => exact ⟨e, rfl⟩
        | panic =>
          exfalso
          unfold Dpw.setPrecision at hx
          split at hx
          · cases hx
          · split at hx <;> cases hx
      · exact Or.inr (Or.inr (Or.inl (ha.trans hd.symm)))
      · exact Or.inr (Or.inr (Or.inr ha))
    cases hx : c.dpw.setPrecision p with
    | ok d' =>
      have : w.step bld (.setPrecision p) = some { w with obj := .dpw d', div := p, ub := fun b => w.ub b ∧ (w.unbuilt ∨ p = w.div) } := by
        simp only [step, Obj.setPrecision, ho, hx]
      refine ⟨_, this, sim_dpw { c with dpw := d', ub := fun b => c.ub b ∧ (c.dpw.structure_ = none ∨ p = c.dpw.precDiv) } rfl
        ⟨.step c _ (.setPrecision p) hr trivial hal (by unfold DpwWorld.step; simp only; rw [hx]), rfl,
        ⟨hv.vm, hv.cls, hv.ins, hv.own⟩, fun b hb => ⟨hu b hb.1, hb.2.imp (fun h => ?_) fun h => h.trans hd.symm⟩, ?_⟩⟩
      · unfold unbuilt at h; rw [ho] at h; exact h
      unfold Dpw.setPrecision at hx
      split at hx
      · cases hx
      · split at hx
        · cases hx
        · cases hx; rfl
    | err e =>
      have : w.step bld (.setPrecision p) = some w := by
        simp only [step, Obj.setPrecision, ho, hx]
        cases e <;> simp only [MaybeError.ofPrecision] <;> rw [← ho]
      exact ⟨w, this, hsame⟩
    | panic =>
      exfalso
      unfold Dpw.setPrecision at hx
      split at hx
      · cases hx
      · split at hx <;> cases hx
  | useVars n =>
    refine ⟨_, rfl, sim_dpw { c with vm := ⟨n⟩ } ho ⟨.step c _ (.useVars ⟨n⟩) hr trivial ?_ rfl, rfl, ⟨rfl, hv.cls, hv.ins, hv.own⟩, hu, hd⟩⟩
    show ManageVars.nUsed c.vm ≤ n
    rw [hv.vm]; exact ha
  | rehash b => unfold allowed at ha; simp only [ho] at ha

/-- Allowed calls do not panic, and lead to states that show states of the encoder. -/
theorem step_sim (h : w.Sim) (call : Call) (ha : w.allowed call) : ∃ w', w.step bld call = some w' ∧ w'.Sim := by
  unfold Sim at h
  cases ho : w.obj with
  | tot t => rw [ho] at h; obtain ⟨c, h⟩ := h; exact step_tot ho h call ha
  | gte t => rw [ho] at h; obtain ⟨c, h⟩ := h; exact step_gte ho h call ha
  | adder t => rw [ho] at h; obtain ⟨c, h⟩ := h; exact step_adder ho h call ha
  | dpw t => rw [ho] at h; obtain ⟨c, h⟩ := h; exact step_dpw ho h call ha

theorem Reach.sim (h : Reach bld w) : w.Sim := by
  induction h with
  | start o n h => exact start_sim n h
  | step w w' call _ ha hs ih =>
    obtain ⟨w'', h1, h2⟩ := step_sim (bld := bld) ih call ha
    rw [hs] at h1; cases h1; exact h2

end
end World
end Capi
end RustSat
