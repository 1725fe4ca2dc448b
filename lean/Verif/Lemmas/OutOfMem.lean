import Verif.Lemmas.Gte
import Verif.Model.OutOfMem
/-
Encoding with a collector that can run out of memory, compared with encoding with enough memory.
-/
namespace RustSat
namespace TotDb
variable {VM : Type} [ManageVars VM]

/-- What is left behind by a function that runs out of memory: a state that could be reached by a completed step, in which
the last clauses may be missing if they are lost. -/
def Partly (lost : Bool) (st s : St VM) : Prop :=
  ∃ full, Step st full ∧ s.db = full.db ∧ s.vm = full.vm ∧ st.cls <+: s.cls ∧ s.cls <+: full.cls ∧
    (lost = false → s.cls = full.cls)

theorem Partly.ofStep {lost : Bool} {st s : St VM} (h : Step st s) : Partly lost st s := by
  obtain ⟨new, e, -⟩ := h.cls
  exact ⟨s, h, rfl, rfl, ⟨new, e.symm⟩, List.prefix_refl _, fun _ => rfl⟩

theorem Partly.after {lost : Bool} {a b s : St VM} (h : Partly lost b s) (hw : a.db.WF) (h1 : Step a b) : Partly lost a s := by
  obtain ⟨full, f1, f2, f3, f4, f5, f6⟩ := h
  obtain ⟨new, e, -⟩ := h1.cls
  exact ⟨full, h1.trans hw f1, f2, f3, List.IsPrefix.trans ⟨new, e.symm⟩ f4, f5, f6⟩

theorem Partly.toStep {lost : Bool} {st s : St VM} (h : Partly lost st s) (hl : lost = false) : Step st s := by
  obtain ⟨full, f1, f2, f3, -, -, f6⟩ := h
  have : s = full := by
    obtain ⟨db, vm, cls⟩ := s
    obtain ⟨db', vm', cls'⟩ := full
    simp only at f2 f3 f6
    rw [f2, f3, f6 hl]
  rw [this]; exact f1

/-- How a function that can run out of memory relates to the one with enough memory, called in the same state. -/
def MemGood {α : Type} (st : St VM) (r : Option (α × St VM)) : Mem VM α → Prop
  | .ok a s => r = some (a, s.st)
  | .oom lost s => Partly lost st s.st
  | .panic => r = none

/-- The same for functions without a result. -/
def MemGoodU (st : St VM) (r : Option (St VM)) : Mem VM Unit → Prop
  | .ok _ s => r = some s.st
  | .oom lost s => Partly lost st s.st
  | .panic => r = none

/-- The same for collecting the clauses of an output. -/
def MemGoodE (st : St VM) (r : Option (St VM)) : Mem VM Unit → Prop
  | .ok _ s => r = some s.st
  | .oom lost s => lost = true ∧ ∃ full, r = some full ∧ s.st.db = full.db ∧ s.st.vm = full.vm ∧ st.cls <+: s.st.cls ∧
      s.st.cls <+: full.cls
  | .panic => r = none

omit [ManageVars VM] in
theorem collectOne_cases (s : MemSt VM) (c : Clause) :
    (∃ mem, collectOne s c = .ok () ⟨addClause s.st c, mem⟩) ∨ (∃ mem, collectOne s c = .oom false ⟨s.st, mem⟩) := by
  unfold collectOne collectAll
  match hm : s.mem with
  | [] => exact Or.inl ⟨[], rfl⟩
  | none :: mem => exact Or.inl ⟨mem, rfl⟩
  | some k :: mem =>
    simp only [List.length_cons, List.length_nil]
    by_cases h : k < 0 + 1
    · rw [if_pos h]
      have : k = 0 := by omega
      subst this
      exact Or.inr ⟨mem, by simp⟩
    · rw [if_neg h]; exact Or.inl ⟨mem, rfl⟩

omit [ManageVars VM] in
theorem collectAll_cases (s : MemSt VM) (cls : ClauseSet) (lost : Bool) :
    (∃ mem, collectAll s cls lost = .ok () ⟨{ s.st with cls := s.st.cls ++ cls }, mem⟩) ∨
    (∃ k mem, collectAll s cls lost = .oom lost ⟨{ s.st with cls := s.st.cls ++ cls.take k }, mem⟩) := by
  unfold collectAll
  match hm : s.mem with
  | [] => exact Or.inl ⟨[], rfl⟩
  | none :: mem => exact Or.inl ⟨mem, rfl⟩
  | some k :: mem =>
    simp only
    by_cases h : k < cls.length
    · rw [if_pos h]; exact Or.inr ⟨k, mem, rfl⟩
    · rw [if_neg h]; exact Or.inl ⟨mem, rfl⟩

theorem memEncodeUnweighted_good (s : MemSt VM) (id idx : Nat) (olit : Lit) (req : Semantics) (p : Pre) :
    MemGoodE s.st (encodeUnweighted s.st id idx olit req p) (memEncodeUnweighted s id idx olit req p) := by
  unfold encodeUnweighted memEncodeUnweighted
  cases s.st.db.unitData id idx with
  | none => rfl
  | some d =>
    simp only
    cases d.missingSemantics req with
    | none => rfl
    | some x =>
      simp only
      generalize s.st.db.setUnit id idx (d.addSemantics req) = db
      cases litSlice db p.lcon.id with
      | none => rfl
      | some ll =>
        cases litSlice db p.rcon.id with
        | none => rfl
        | some rl =>
          simp only
          cases collect (ifClause p ll rl idx olit) p.leftIf with
          | none => rfl
          | some c1 =>
            cases collect (onlyIfClause db p ll rl idx olit) p.leftOnlyIf with
            | none => rfl
            | some c2 =>
              simp only
              rcases collectAll_cases { s with st := { s.st with db := db } } c1 true with ⟨mem, e⟩ | ⟨k, mem, e⟩
              · rw [e]
                simp only [Mem.bind]
                rcases collectAll_cases (⟨{ s.st with db := db, cls := s.st.cls ++ c1 }, mem⟩ : MemSt VM) c2 true with
                  ⟨mem', e2⟩ | ⟨k, mem', e2⟩
                · rw [e2]; rfl
                · rw [e2]
                  refine ⟨rfl, _, rfl, rfl, rfl, ⟨c1 ++ c2.take k, by simp [List.append_assoc]⟩, ⟨c2.drop k, ?_⟩⟩
                  simp [List.append_assoc]
              · rw [e]
                refine ⟨rfl, _, rfl, rfl, rfl, ⟨c1.take k, by simp⟩, ⟨c1.drop k ++ c2, ?_⟩⟩
                simp only [List.append_assoc]
                rw [← List.append_assoc (c1.take k), List.take_append_drop]

/-- A defining function that can run out of memory does what the one with enough memory does, on nodes below a bound. -/
def MemSpec (f : St VM → Nat → Nat → Semantics → Option (Lit × St VM)) (mf : MemSt VM → Nat → Nat → Semantics → Mem VM Lit)
    (bound : Nat) : Prop :=
  ∀ (s : MemSt VM) (id idx : Nat) (sem : Semantics), s.st.db.WF → id < bound → (s.st.db.node id).isGeneral = false →
    idx < (s.st.db.node id).len → MemGood s.st (f s.st id idx sem) (mf s id idx sem)

theorem memRunRequests_good {f : St VM → Nat → Nat → Semantics → Option (Lit × St VM)}
    {mf : MemSt VM → Nat → Nat → Semantics → Mem VM Lit} {bound : Nat} (hf : DefSpec f bound) (hm : MemSpec f mf bound) :
    ∀ (reqs : List (Nat × Nat × Semantics)) (s : MemSt VM), s.st.db.WF →
    (∀ q ∈ reqs, q.1 < bound ∧ (s.st.db.node q.1).isGeneral = false ∧ q.2.1 < (s.st.db.node q.1).len) →
    MemGoodU s.st (runRequests f reqs s.st) (memRunRequests mf reqs s) := by
  intro reqs
  induction reqs with
  | nil => intro s _ _; rfl
  | cons q rest ih =>
    intro s hw h
    obtain ⟨q1, q2, q3⟩ := q
    obtain ⟨h1, h2, h3⟩ := h (q1, q2, q3) (by simp)
    obtain ⟨l, st1, e1, s1, -, -, -⟩ := hf s.st q1 q2 q3 hw h1 h2 h3
    have g := hm s q1 q2 q3 hw h1 h2 h3
    simp only [runRequests, memRunRequests, e1]
    rw [e1] at g
    cases hx : mf s q1 q2 q3 with
    | panic => rw [hx] at g; cases g
    | oom lost s' => rw [hx] at g; exact g
    | ok a s' =>
      rw [hx] at g
      simp only [MemGood, Option.some.injEq, Prod.mk.injEq] at g
      obtain ⟨-, rfl⟩ := g
      simp only [Mem.bind]
      have := ih s' (s1.ref.wf hw) fun q hq => by
        obtain ⟨g1, g2, g3⟩ := h q (by simp [hq])
        exact ⟨g1, by rw [(s1.ref.node q.1).isGeneral]; exact g2, by rw [(s1.ref.node q.1).len]; exact g3⟩
      cases hy : memRunRequests mf rest s' with
      | panic => rw [hy] at this; exact this
      | ok a s2 => rw [hy] at this; exact this
      | oom lost s2 => rw [hy] at this; exact this.after hw s1

theorem requests_valid {db : Db} (hw : db.WF) {id idx : Nat} {lits : List LitData} {dp nl : Nat} {lc rc : NodeCon}
    (hn : db.node id = .unit lits dp nl lc rc) (new : Semantics) :
    ∀ q ∈ requests db (preRanges db lc rc idx new),
      q.1 < id ∧ (db.node q.1).isGeneral = false ∧ q.2.1 < (db.node q.1).len := by
  have hid : id < db.nodes.length := Db.node_lt (by rw [hn]; exact fun h => by cases h)
  have hok := hw.nodes id _ (Db.getElem?_node hid)
  rw [hn] at hok
  obtain ⟨o1, o2, ucl, ucr, olen⟩ := hok
  intro q hq
  unfold requests preRanges at hq
  simp only [List.mem_append, List.mem_map, List.mem_filter] at hq
  rcases hq with ((⟨v, ⟨hv, h0⟩, rfl⟩ | ⟨v, ⟨hv, h0⟩, rfl⟩) | ⟨v, ⟨hv, h0⟩, rfl⟩) | ⟨v, ⟨hv, h0⟩, rfl⟩
  · by_cases hnew : new.hasIf = true
    · rw [if_pos hnew, mem_rangeIncl] at hv
      simp at h0
      exact ⟨o1, ucl.notGeneral, (con_child ucl (k := v) (by omega) (by omega)).1⟩
    · rw [if_neg hnew] at hv; cases hv
  · by_cases hnew : new.hasIf = true
    · rw [if_pos hnew, mem_rangeIncl] at hv
      simp at h0
      exact ⟨o2, ucr.notGeneral, (con_child ucr (k := v) (by omega) (by omega)).1⟩
    · rw [if_neg hnew] at hv; cases hv
  · by_cases hnew : new.hasOnlyIf = true
    · rw [if_pos hnew, mem_rangeIncl] at hv
      simp at h0
      exact ⟨o1, ucl.notGeneral, (con_child ucl (k := v + 1) (by omega) (by omega)).1⟩
    · rw [if_neg hnew] at hv; cases hv
  · by_cases hnew : new.hasOnlyIf = true
    · rw [if_pos hnew, mem_rangeIncl] at hv
      simp at h0
      exact ⟨o2, ucr.notGeneral, (con_child ucr (k := v + 1) (by omega) (by omega)).1⟩
    · rw [if_neg hnew] at hv; cases hv

theorem memDefineUnweighted_good [LawfulVM VM] :
    ∀ fuel, MemSpec (fun (st : St VM) id idx sem => defineUnweighted fuel st id idx sem)
      (fun s id idx sem => memDefineUnweighted fuel s id idx sem) fuel := by
  intro fuel
  induction fuel with
  | zero => intro s id idx sem _ h; omega
  | succ fuel ih =>
    intro s id idx sem hw hfuel hg hidx
    cases hn : s.st.db.node id with
    | dummy => rw [hn] at hidx; exact absurd hidx (Nat.not_lt_zero _)
    | general => rw [hn] at hg; cases hg
    | leaf l => simp only [defineUnweighted, memDefineUnweighted, precond, hn]; rfl
    | unit lits dp nl lc rc =>
      have hlen : idx < lits.length := by rw [hn] at hidx; exact hidx
      have hd := List.getElem?_eq_getElem hlen
      generalize lits[idx] = d at hd
      have hid : id < s.st.db.nodes.length := Db.node_lt (by rw [hn]; exact fun h => by cases h)
      have hok := hw.nodes id _ (Db.getElem?_node hid)
      rw [hn] at hok
      obtain ⟨o1, o2, ucl, ucr, olen⟩ := hok
      have hpre := precond_unit hn hd sem
      cases hm : d.missingSemantics sem with
      | none =>
        obtain ⟨l, t, rfl, h1, h2⟩ := missing_none hm
        rw [hm] at hpre
        simp only [defineUnweighted, memDefineUnweighted, hpre]
        rfl
      | some new =>
        rw [hm] at hpre
        simp only at hpre
        by_cases hdum : s.st.db.node lc.id = .dummy ∨ s.st.db.node rc.id = .dummy
        · rw [if_pos hdum] at hpre
          generalize hcon : (if s.st.db.node lc.id = .dummy then rc else lc) = con at hpre
          have hcon : con.id < id ∧ UnitCon s.st.db con ∧ lits.length = s.st.db.conLen con := by
            by_cases hdl : s.st.db.node lc.id = .dummy
            · rw [if_pos hdl] at hcon
              subst hcon
              have := dummy_con hw hdl (fun _ => true)
              exact ⟨o2, ucr, by omega⟩
            · rw [if_neg hdl] at hcon
              subst hcon
              have hdr : s.st.db.node rc.id = .dummy := by rcases hdum with h | h; exact absurd h hdl; exact h
              have := dummy_con hw hdr (fun _ => true)
              exact ⟨o1, ucl, by omega⟩
          obtain ⟨k1, k2, k3⟩ := hcon
          obtain ⟨m1, -⟩ := con_child k2 (k := idx + 1) (by omega) (by omega)
          simp only [Nat.add_sub_cancel] at m1
          obtain ⟨ilit, st1, e1, s1, l1, n1, -⟩ := defineUnweighted_spec fuel s.st con.id (conIdx idx con) sem hw (by omega)
            k2.notGeneral m1
          have g := ih s con.id (conIdx idx con) sem hw (by omega) k2.notGeneral m1
          simp only at e1 g
          simp only [defineUnweighted, memDefineUnweighted, hpre, e1]
          rw [e1] at g
          cases hx : memDefineUnweighted fuel s con.id (conIdx idx con) sem with
          | panic => rw [hx] at g; cases g
          | oom lost s' => rw [hx] at g; exact g
          | ok a s' =>
            rw [hx] at g
            simp only [MemGood, Option.some.injEq, Prod.mk.injEq] at g
            obtain ⟨rfl, rfl⟩ := g
            simp only [Mem.bind]
            have hn1 : s'.st.db.node id = .unit lits dp nl lc rc := by rw [n1 id k1, hn]
            obtain ⟨olit, t, st2, lits2, e2, s2, hn2, hd2, -⟩ := getOlit_spec (s1.ref.wf hw) hn1 hd
            rw [e2]
            simp only
            rcases collectOne_cases (⟨st2, s'.mem⟩ : MemSt VM) (Atomics.litImplLit ilit olit) with ⟨mem, e⟩ | ⟨mem, e⟩
            · rw [e]
              simp only [Mem.bind, addClause]
              cases st2.db.unitData id idx with
              | none => rfl
              | some d => rfl
            · rw [e]; exact Partly.ofStep (s1.trans hw s2)
        · rw [if_neg hdum] at hpre
          have hv := requests_valid hw hn (idx := idx) new
          have hf : DefSpec (fun (st : St VM) id idx sem => defineUnweighted fuel st id idx sem) id :=
            fun st id' idx' sem' h1 h2 h3 h4 => defineUnweighted_spec fuel st id' idx' sem' h1 (by omega) h3 h4
          obtain ⟨st1, e1, s1, l1, n1⟩ := runRequests_spec hf _ s.st hw hv
          have g := memRunRequests_good hf (fun s id' idx' sem' h1 h2 h3 h4 => ih s id' idx' sem' h1 (by omega) h3 h4)
            _ s hw hv
          simp only [defineUnweighted, memDefineUnweighted, hpre, e1]
          rw [e1] at g
          cases hx : memRunRequests (fun s id idx sem => memDefineUnweighted fuel s id idx sem)
              (requests s.st.db (preRanges s.st.db lc rc idx new)) s with
          | panic => rw [hx] at g; cases g
          | oom lost s' => rw [hx] at g; exact g
          | ok a s' =>
            rw [hx] at g
            simp only [MemGoodU, Option.some.injEq] at g
            subst g
            simp only [Mem.bind]
            have hn1 : s'.st.db.node id = .unit lits dp nl lc rc := by rw [n1 id (Nat.le_refl _), hn]
            obtain ⟨olit, t, st2, lits2, e2, s2, -⟩ := getOlit_spec (s1.ref.wf hw) hn1 hd
            rw [e2]
            simp only
            have g2 := memEncodeUnweighted_good (⟨st2, s'.mem⟩ : MemSt VM) id idx olit sem (preRanges s.st.db lc rc idx new)
            simp only at g2
            cases hy : memEncodeUnweighted (⟨st2, s'.mem⟩ : MemSt VM) id idx olit sem (preRanges s.st.db lc rc idx new) with
            | panic => rw [hy] at g2; simp only [MemGoodE] at g2; rw [g2]; rfl
            | ok _ s2 => rw [hy] at g2; simp only [MemGoodE] at g2; rw [g2]; rfl
            | oom lost s3 =>
              rw [hy] at g2
              obtain ⟨rfl, full, f1, f2, f3, f4, f5⟩ := g2
              obtain ⟨l', st', e', s', -⟩ := defineUnweighted_spec (fuel + 1) s.st id idx sem hw hfuel hg hidx
              simp only [defineUnweighted, hpre, e1, e2, f1, Option.some.injEq, Prod.mk.injEq] at e'
              obtain ⟨-, rfl⟩ := e'
              obtain ⟨new, en, -⟩ := (s1.trans hw s2).cls
              exact ⟨full, s', f2, f3, List.IsPrefix.trans ⟨new, en.symm⟩ f4, f5, fun h => by cases h⟩

/-- The same for weighted defining functions. -/
def MemSpecW (f : St VM → Nat → Nat → Option (Option Lit × St VM)) (mf : MemSt VM → Nat → Nat → Mem VM (Option Lit))
    (bound : Nat) : Prop :=
  ∀ (s : MemSt VM) (id val : Nat), s.st.db.WF → id < bound → MemGood s.st (f s.st id val) (mf s id val)

section
variable {f : St VM → Nat → Nat → Option (Option Lit × St VM)} {mf : MemSt VM → Nat → Nat → Mem VM (Option Lit)}

theorem memPropagateVal_good {bound : Nat} (hf : DefW f bound) (hm : MemSpecW f mf bound) {s : MemSt VM} {val : Nat}
    {olit : Lit} {c : NodeCon} (hw : s.st.db.WF) (hcb : c.id < bound) :
    MemGoodU s.st (propagateVal f c val olit s.st) (memPropagateVal mf c val olit s) := by
  unfold propagateVal memPropagateVal
  by_cases h : (c.isPossible val && decide (c.revMap val ≤ (s.st.db.node c.id).maxVal)) = true
  · rw [if_pos h, if_pos h]
    obtain ⟨r, st1, e1, s1, -⟩ := hf s.st c.id (c.revMap val) hw hcb
    have g := hm s c.id (c.revMap val) hw hcb
    rw [e1] at g ⊢
    cases hx : mf s c.id (c.revMap val) with
    | panic => rw [hx] at g; cases g
    | oom lost s' => rw [hx] at g; exact g
    | ok a s' =>
      rw [hx] at g
      simp only [MemGood, Option.some.injEq, Prod.mk.injEq] at g
      obtain ⟨rfl, rfl⟩ := g
      simp only [Mem.bind]
      cases r with
      | none => rfl
      | some l =>
        simp only
        rcases collectOne_cases s' (Atomics.litImplLit l olit) with ⟨mem, e⟩ | ⟨mem, e⟩
        · rw [e]; rfl
        · rw [e]; exact Partly.ofStep s1
  · rw [if_neg h, if_neg h]; rfl

omit [ManageVars VM] in
theorem sumLoop_cons (lc rc : NodeCon) (rmax val : Nat) (olit : Lit) (lv : Nat) (rest : List Nat) (st : St VM) :
    sumLoop f lc rc rmax val olit (lv :: rest) st =
      (sumLoop f lc rc rmax val olit [lv] st).bind (sumLoop f lc rc rmax val olit rest) := by
  simp only [sumLoop]
  by_cases h : (rc.isPossible (val - lc.map lv) && decide (rc.revMap (val - lc.map lv) ≤ rmax)) = true
  · rw [if_pos h, if_pos h]
    match f st rc.id (rc.revMap (val - lc.map lv)) with
    | none => rfl
    | some (none, st) => rfl
    | some (some rlit, st) =>
      simp only
      match f st lc.id lv with
      | none => rfl
      | some (none, st) => rfl
      | some (some llit, st) => rfl
  · rw [if_neg h, if_neg h]; rfl

theorem memSumLoop_good {bound : Nat} (hf : DefW f bound) (hm : MemSpecW f mf bound) {id k val : Nat} {olit : Lit}
    {lc rc : NodeCon} (hlb : lc.id < bound) (hrb : rc.id < bound) {rmax : Nat} :
    ∀ (lvals : List Nat) (s : MemSt VM), Ctx s.st.db id k val olit lc rc → rmax = (s.st.db.node rc.id).maxVal →
    (∀ lv ∈ lvals, lv ∈ (s.st.db.node lc.id).valsFrom 1 ∧ lc.map lv < val) →
    MemGoodU s.st (sumLoop f lc rc rmax val olit lvals s.st) (memSumLoop mf lc rc rmax val olit lvals s) := by
  intro lvals
  induction lvals with
  | nil => intro s _ _ _; rfl
  | cons lv rest ih =>
    intro s hx hmax hlv
    obtain ⟨st1, e1, s1, -⟩ := sumLoop_spec hf hlb hrb [lv] s.st hx hmax fun lw hlw => hlv lw (by
      simp only [List.mem_cons, List.not_mem_nil, or_false] at hlw
      simp [hlw])
    rw [sumLoop_cons, e1]
    simp only [Option.bind_some]
    have next : ∀ s' : MemSt VM, s'.st = st1 →
        MemGoodU s.st (sumLoop f lc rc rmax val olit rest st1) (memSumLoop mf lc rc rmax val olit rest s') := by
      rintro s' rfl
      have := ih s' (hx.ref s1.ref) (by rw [(s1.ref.node rc.id).maxVal]; exact hmax) fun lw hlw => by
        rw [(s1.ref.node lc.id).valsFrom]
        exact hlv lw (by simp [hlw])
      cases hy : memSumLoop mf lc rc rmax val olit rest s' with
      | panic => rw [hy] at this; exact this
      | ok a s2 => rw [hy] at this; exact this
      | oom lost s2 => rw [hy] at this; exact this.after hx.wf s1
    simp only [sumLoop] at e1
    simp only [memSumLoop]
    by_cases h : (rc.isPossible (val - lc.map lv) && decide (rc.revMap (val - lc.map lv) ≤ rmax)) = true
    · rw [if_pos h] at e1 ⊢
      obtain ⟨r, st2, e2, s2, -⟩ := hf s.st rc.id (rc.revMap (val - lc.map lv)) hx.wf hrb
      have g := hm s rc.id (rc.revMap (val - lc.map lv)) hx.wf hrb
      rw [e2] at e1 g
      cases hc : mf s rc.id (rc.revMap (val - lc.map lv)) with
      | panic => rw [hc] at g; cases g
      | oom lost s' => rw [hc] at g; exact g
      | ok a s' =>
        rw [hc] at g
        simp only [MemGood, Option.some.injEq, Prod.mk.injEq] at g
        obtain ⟨rfl, rfl⟩ := g
        simp only [Mem.bind]
        cases r with
        | none =>
          simp only [Option.some.injEq] at e1 ⊢
          exact next s' e1
        | some rlit =>
          simp only at e1 ⊢
          have hw2 := s2.ref.wf hx.wf
          obtain ⟨r3, st3, e3, s3, -⟩ := hf s'.st lc.id lv hw2 hlb
          have g3 := hm s' lc.id lv hw2 hlb
          rw [e3] at e1 g3
          cases hc3 : mf s' lc.id lv with
          | panic => rw [hc3] at g3; cases g3
          | oom lost s4 => rw [hc3] at g3; exact g3.after hx.wf s2
          | ok a s4 =>
            rw [hc3] at g3
            simp only [MemGood, Option.some.injEq, Prod.mk.injEq] at g3
            obtain ⟨rfl, rfl⟩ := g3
            simp only
            cases r3 with
            | none => cases e1
            | some llit =>
              simp only [Option.some.injEq] at e1 ⊢
              rcases collectOne_cases s4 (Atomics.cubeImplLit [llit, rlit] olit) with ⟨mem, e⟩ | ⟨mem, e⟩
              · rw [e]; exact next ⟨_, mem⟩ e1
              · rw [e]; exact Partly.ofStep (s2.trans hx.wf s3)
    · rw [if_neg h] at e1 ⊢
      exact next s (by simpa using e1)
end

theorem memDefineWeighted_good [LawfulVM VM] :
    ∀ fuel, MemSpecW (fun (st : St VM) id val => defineWeighted fuel st id val)
      (fun s id val => memDefineWeighted fuel s id val) fuel := by
  intro fuel
  induction fuel with
  | zero => intro s id val _ h; omega
  | succ fuel ih =>
    intro s id val hw hid
    simp only [defineWeighted, memDefineWeighted]
    cases hn : s.st.db.node id with
    | dummy => rfl
    | leaf l => rfl
    | unit lits dp nl lc rc =>
      simp only
      by_cases h : val > lits.length ∨ val = 0
      · rw [if_pos h, if_pos h]; rfl
      · rw [if_neg h, if_neg h]
        have g := memDefineUnweighted_good (id + 1) s id (val - 1) .if_ hw
          (Nat.lt_succ_self _) (by rw [hn]; rfl) (by rw [hn]; simp only [Node.len]; omega)
        unfold define
        simp only at g
        cases hx : memDefineUnweighted (id + 1) s id (val - 1) .if_ with
        | panic => rw [hx] at g; simp only [MemGood] at g; rw [g]; rfl
        | ok l s' => rw [hx] at g; simp only [MemGood] at g; rw [g]; rfl
        | oom lost s' => rw [hx] at g; exact g
    | general lits dp nl m lc rc =>
      simp only
      have hlt : id < s.st.db.nodes.length := Db.node_lt (by rw [hn]; intro h; cases h)
      cases hk : valIdx lits val with
      | none => rfl
      | some k =>
        simp only
        obtain ⟨d, hd⟩ := valIdx_some hk
        have hout : (s.st.db.node id).outData k = some (val, d) := by rw [hn]; exact hd
        rw [outLit_of_outData hout]
        simp only
        by_cases hif : d.hasIf = true
        · obtain ⟨l, t, rfl⟩ : ∃ l t, d = .lit l (some t) := by
            match d, hif with
            | .lit l (some t), _ => exact ⟨l, t, rfl⟩
          simp only [hif, LitData.lit?]
          rfl
        · have hif : d.hasIf = false := by simpa using hif
          simp only [hif]
          have hok := hw.nodes id _ (Db.getElem?_node hlt)
          rw [hn] at hok
          obtain ⟨o1, o2, o3, o4, o5, o6, o7⟩ := hok
          obtain ⟨olit, t, st1, e1, s1, d1, -, n1, -⟩ := weightedOlit_spec hw hout
          rw [e1]
          simp only
          have hw1 := s1.ref.wf hw
          have hx1 : Ctx st1.db id k val olit lc rc :=
            ⟨hw1, s1.ref.plain o3, s1.ref.plain o4, fun T => by
              rw [value_eq hw1, s1.ref.shape, hn]; rfl, ⟨t, d1⟩⟩
          have hl := hx1.left
          have hsv : ∀ lv, lv ∈ sumVals st1.db lc val → lv ∈ (st1.db.node lc.id).valsFrom 1 ∧ lc.map lv < val := by
            intro lv
            unfold sumVals
            rw [hl.offset, Nat.zero_add]
            by_cases h : lc.map 1 < val
            · rw [if_pos h, mem_valsRange (Nat.le_refl _), hl.roundUp]
              rintro ⟨g1, -, g2⟩; exact ⟨g1, g2⟩
            · rw [if_neg h]
              intro h; cases h
          have hf : DefW (fun (st : St VM) i v => defineWeighted fuel st i v) id :=
            fun st i v h1 h2 => defineWeighted_spec fuel st i v h1 (by omega)
          have hm : MemSpecW (fun (st : St VM) i v => defineWeighted fuel st i v)
              (fun s i v => memDefineWeighted fuel s i v) id := fun s i v h1 h2 => ih s i v h1 (by omega)
          obtain ⟨st2, e2, s2, n2, -⟩ := sumLoop_spec hf o1 o2 (sumVals st1.db lc val) st1 hx1 rfl hsv
          have g2 := memSumLoop_good hf hm o1 o2 (sumVals st1.db lc val) (⟨st1, s.mem⟩ : MemSt VM) hx1 rfl hsv
          simp only at g2
          rw [e2] at g2 ⊢
          cases hc2 : memSumLoop (fun s i v => memDefineWeighted fuel s i v) lc rc (st1.db.node rc.id).maxVal val olit
              (sumVals st1.db lc val) (⟨st1, s.mem⟩ : MemSt VM) with
          | panic => rw [hc2] at g2; cases g2
          | oom lost s' => rw [hc2] at g2; exact g2.after hw s1
          | ok _ s' =>
            rw [hc2] at g2
            simp only [MemGoodU, Option.some.injEq] at g2
            subst g2
            simp only [Mem.bind]
            have hx2 := hx1.ref s2.ref
            obtain ⟨st3, e3, s3, n3, -⟩ := propagateVal_spec hf hx2 (Or.inl rfl) o1
            have g3 := memPropagateVal_good hf hm (val := val) (olit := olit) hx2.wf o1
            rw [e3] at g3 ⊢
            have s13 := (s1.trans hw s2)
            cases hc3 : memPropagateVal (fun s i v => memDefineWeighted fuel s i v) lc val olit s' with
            | panic => rw [hc3] at g3; cases g3
            | oom lost s4 => rw [hc3] at g3; exact g3.after hw s13
            | ok _ s4 =>
              rw [hc3] at g3
              simp only [MemGoodU, Option.some.injEq] at g3
              subst g3
              simp only
              have hx3 := hx2.ref s3.ref
              obtain ⟨st5, e5, s5, n5, -⟩ := propagateVal_spec hf hx3 (Or.inr rfl) o2
              have g5 := memPropagateVal_good hf hm (val := val) (olit := olit) hx3.wf o2
              rw [e5] at g5 ⊢
              cases hc5 : memPropagateVal (fun s i v => memDefineWeighted fuel s i v) rc val olit s4 with
              | panic => rw [hc5] at g5; cases g5
              | oom lost s6 => rw [hc5] at g5; exact g5.after hw (s13.trans hw s3)
              | ok _ s6 =>
                rw [hc5] at g5
                simp only [MemGoodU, Option.some.injEq] at g5
                subst g5
                simp only
                cases s6.st.db.outLit id k with
                | none => rfl
                | some d => rfl

theorem memDefineVals_good [LawfulVM VM] (id : Nat) : ∀ (vals : List Nat) (s : MemSt VM), s.st.db.WF →
    (∀ v ∈ vals, v ∈ (s.st.db.node id).valsFrom 1) →
    MemGoodU s.st (defineVals s.st id vals) (memDefineVals s id vals) := by
  intro vals
  induction vals with
  | nil => intro s _ _; rfl
  | cons v rest ih =>
    intro s hw h
    obtain ⟨r, st1, e1, s1, n1, y1, -, a1⟩ := defineWeighted_spec (id + 1) s.st id v hw (Nat.lt_succ_self _)
    obtain ⟨l, rfl, hl⟩ := y1 (h v (by simp))
    have g := memDefineWeighted_good (id + 1) s id v hw (Nat.lt_succ_self _)
    simp only at e1 g
    simp only [defineVals, memDefineVals, e1]
    rw [e1] at g
    cases hx : memDefineWeighted (id + 1) s id v with
    | panic => rw [hx] at g; cases g
    | oom lost s' => rw [hx] at g; exact g
    | ok a s' =>
      rw [hx] at g
      simp only [MemGood, Option.some.injEq, Prod.mk.injEq] at g
      obtain ⟨rfl, rfl⟩ := g
      simp only [Mem.bind]
      have := ih s' (s1.ref.wf hw) fun w hw' => by
        rw [(s1.ref.node id).valsFrom]; exact h w (by simp [hw'])
      cases hy : memDefineVals s' id rest with
      | panic => rw [hy] at this; exact this
      | ok a s2 => rw [hy] at this; exact this
      | oom lost s2 => rw [hy] at this; exact this.after hw s1

end TotDb
end RustSat
