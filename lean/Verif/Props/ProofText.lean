import Verif.Lemmas.ProofText5
import Verif.Props.Cert
import Verif.Props.CertGte
import Verif.Props.CertInverted
import Verif.Props.CertEncode
/-
C83: the text that the proof logging library writes says what its calls mean. `Verif.Spec.ProofText` has a reader for
proofs, the meaning of every call, the ids that a checker gives, and a checker that starts from the text.

Partial: objectives with an offset, plain substitutions and updates of the objective with a sub-proof are excluded, because
the library gets them wrong (the violations at the end).
-/
namespace RustSat
namespace ProofText
open VeriPb

/-- **C83 (partial).** After any calls with well-formed arguments, the written text consists of the header and, one after
another, the lines that the calls are meant to say. The next id is the one a checker gives next. When the proof is concluded,
the output guarantee and the conclusion follow; when it is dropped, the last default conclusion. Missing: the calls that
`Covered` and `CountsIds` exclude. -/
theorem C83_text_partial (short : Bool) (n : Nat) (opt : Bool) (g0 : Output) (c0 : Conclusion) (hv : c0.Valid) (cs : List Call)
    (q : Proof) (h : Reaches short (Proof.newWithConclusion n opt g0 c0) cs q) (hi : ∀ c ∈ cs, c.CountsIds) :
    ∃ is, readProof q.out = some (.header :: .formula n :: is) ∧ SayAll ⟨n + 1, []⟩ cs is ∧
      Ids.run ⟨n + 1, []⟩ is = ⟨q.nextId, []⟩ ∧
      (∀ (g : Output) (c : Conclusion), c.Valid → ∃ r, c.Says r ∧ readProof (q.conclude g c) =
        some (.header :: .formula n :: (is ++ [.output g, .conclusion r, .endProof]))) ∧
      ∃ r, (lastDefault (g0, c0) cs).2.Says r ∧ readProof q.drop =
        some (.header :: .formula n :: (is ++ [.output (lastDefault (g0, c0) cs).1, .conclusion r, .endProof])) := by
  have hp : 0 < (Proof.newWithConclusion n opt g0 c0).nextId := Nat.succ_pos n
  obtain ⟨t, is, h1, h2, h3, h4⟩ := history hp h hi
  have ho : Reads q.out ([.header, .formula n] ++ is) := by
    rw [h1]
    exact (newWithConclusion_reads n opt g0 c0).append h2
  obtain ⟨d1, d2⟩ := history_default hp h rfl hv
  refine ⟨is, ho.read, h3, h4, fun g c hc => ?_, ?_⟩
  · obtain ⟨r, hr, hl⟩ := conclusion_line hc
    exact ⟨r, hr, (ending_reads ho (output_line g) hl).read⟩
  · obtain ⟨r, hr, hl⟩ := conclusion_line d2
    refine ⟨r, hr, ?_⟩
    have := (ending_reads ho (output_line (lastDefault (g0, c0) cs).1) hl).read
    unfold Proof.drop
    rw [d1]
    exact this

/-- `Proof::new` is the same with the conclusion `NONE`. -/
theorem C83_new (n : Nat) (opt : Bool) : Proof.new n opt = Proof.newWithConclusion n opt .none .none := rfl

/-- A history for the examples: the formula has three constraints. -/
def demoTextCalls : List Call :=
  [.comment "start".toList,
   .reverseUnitProp ⟨[(1, litAx (Lit.pos 0)), (2, litAx (Lit.negOf 1))], 2⟩ [.abs 1, .rel 1],
   .redundant ⟨[(1, ⟨true, "pv0".toList⟩), (-3, litAx (Lit.pos 2))], -2⟩ [⟨"pv0".toList, .lit (litAx (Lit.negOf 2))⟩]
     [.deriv (.rup ⟨[(1, litAx (Lit.pos 0))], 1⟩ []), .goal ⟨.constr (.rel 2), [.ops [.id (.abs 2), .mult 3, .sat]]⟩],
   .operations [.id (.abs 1), .id (.rel 1), .add, .div 2, .ax (litAx (Lit.negOf 0)), .add],
   .deleteIdRange (.included (.abs 2)) (.excluded (.rel 2)),
   .updateDefaultConclusion .none (.unsat (some (.rel 1)))]
/-- Doing calls. -/
def execAll (short : Bool) (p : Proof) : List Call → Option Proof
  | [] => some p
  | c :: cs => match c.exec short p with | some (_, q) => execAll short q cs | none => none

example : ∀ c ∈ demoTextCalls, c.CountsIds := by
  intro c hc
  simp only [demoTextCalls, List.mem_cons, List.not_mem_nil, or_false] at hc
  rcases hc with rfl | rfl | rfl | rfl | rfl | rfl <;> trivial

/-- The history can be done. -/
theorem demoText_reaches : ∃ q, Reaches true (Proof.new 3 false) demoTextCalls q ∧ q.nextId = 11 := by
  have h0 : Reaches true (Proof.new 3 false) [] (Proof.new 3 false) := .start
  have h1 := h0.call (c := .comment "start".toList) (by show '\n' ∉ "start".toList; decide) trivial rfl
  have h2 := h1.call (c := .reverseUnitProp ⟨[(1, litAx (Lit.pos 0)), (2, litAx (Lit.negOf 1))], 2⟩ [.abs 1, .rel 1])
    ⟨conOf_valid ⟨[(1, Lit.pos 0), (2, Lit.negOf 1)], 2⟩, by
      intro i hi
      simp only [List.mem_cons, List.not_mem_nil, or_false] at hi
      rcases hi with rfl | rfl <;> exact Nat.one_pos⟩ trivial rfl
  have h3 := h2.call (c := .redundant ⟨[(1, ⟨true, "pv0".toList⟩), (-3, litAx (Lit.pos 2))], -2⟩
      [⟨"pv0".toList, .lit (litAx (Lit.negOf 2))⟩]
      [.deriv (.rup ⟨[(1, litAx (Lit.pos 0))], 1⟩ []), .goal ⟨.constr (.rel 2), [.ops [.id (.abs 2), .mult 3, .sat]]⟩])
    ⟨by
      intro t ht
      simp only [List.mem_cons, List.not_mem_nil, or_false] at ht
      rcases ht with rfl | rfl
      · show isName "pv0".toList = true; decide
      · exact litAx_valid _, by
      intro s hs
      rw [List.mem_singleton.1 hs]
      refine ⟨by decide, fun a ha => ?_⟩
      injection ha with ha
      subst ha
      exact litAx_valid _, by
      intro e he
      simp only [List.mem_cons, List.not_mem_nil, or_false] at he
      rcases he with rfl | rfl
      · exact ⟨conOf_valid ⟨[(1, Lit.pos 0)], 1⟩, by simp⟩
      · refine ⟨Nat.two_pos, fun d hd => ?_⟩
        rw [List.mem_singleton.1 hd]
        refine ⟨by simp, fun o ho => ?_⟩
        simp only [List.mem_cons, List.not_mem_nil, or_false] at ho
        rcases ho with rfl | rfl | rfl
        · exact Nat.two_pos
        · show 0 < 3; decide
        · trivial⟩ trivial rfl
  have h4 := h3.call (c := .operations [.id (.abs 1), .id (.rel 1), .add, .div 2, .ax (litAx (Lit.negOf 0)), .add])
    ⟨by simp, by
      intro o ho
      simp only [List.mem_cons, List.not_mem_nil, or_false] at ho
      rcases ho with rfl | rfl | rfl | rfl | rfl | rfl
      · exact Nat.one_pos
      · exact Nat.one_pos
      · trivial
      · exact Nat.two_pos
      · exact litAx_valid _
      · trivial⟩ trivial rfl
  have h5 := h4.call (c := .deleteIdRange (.included (.abs 2)) (.excluded (.rel 2))) ⟨Nat.two_pos, Nat.two_pos⟩ trivial rfl
  have h6 := h5.call (c := .updateDefaultConclusion .none (.unsat (some (.rel 1))))
    (by intro i hi; injection hi with hi; subst hi; exact Nat.one_pos) trivial rfl
  exact ⟨_, h6, rfl⟩

set_option maxRecDepth 10000 in
example : (execAll true (Proof.new 3 false) demoTextCalls).map (fun q => q.drop) =
    some "pseudo-Boolean proof version 2.0\nf 3\n* start\nu 1 x1 2 ~x2 >= 2 ; 1 -1\nred 1 ~pv0 -3 x3 >= -2 ; pv0 -> ~x3 ; begin\n  u 1 x1 >= 1 ; \n  proofgoal -2\n    p 2 3 * s\n  qed -1\nend\np 1 -1 + 2 d ~x1 +\ndel range 2 -2\noutput NONE\nconclusion UNSAT : -1\nend pseudo-Boolean proof\n".toList := by
  rfl

/-- **C83.** Any single call with well-formed arguments, after any history, appends lines that say what the call means; also
after the calls that `CountsIds` excludes. -/
theorem C83_call (short : Bool) (n : Nat) (opt : Bool) (g0 : Output) (c0 : Conclusion) (cs : List Call) (q : Proof)
    (h : Reaches short (Proof.newWithConclusion n opt g0 c0) cs q) (c : Call) (hv : c.Valid) (hc : c.Covered) (r : Option Nat)
    (q' : Proof) (he : c.exec short q = some (r, q')) :
    ∃ t is, q'.out = q.out ++ t ∧ readProof t = some is ∧ c.Says q.nextId is := by
  obtain ⟨t, is, d⟩ := (call_spec short (reaches_pos (Nat.succ_pos n) h).1 hv hc).2 _ _ he
  exact ⟨t, is, d.out, d.reads.read, d.says⟩

/-- **C83 (partial).** The id that a call returns is the one that a checker gives to the constraint: the last id given by the
text, and none of those given before. Missing: histories with updates of the objective with a sub-proof. -/
theorem C83_ids_partial (short : Bool) (n : Nat) (opt : Bool) (g0 : Output) (c0 : Conclusion) (cs : List Call) (q : Proof)
    (h : Reaches short (Proof.newWithConclusion n opt g0 c0) cs q) (hi : ∀ c ∈ cs, c.CountsIds) (c : Call) (hv : c.Valid)
    (hc : c.Covered) (i : Nat) (q' : Proof) (he : c.exec short q = some (some i, q')) (hci : c.CountsIds) :
    ∃ is is', readProof q.out = some (.header :: .formula n :: is) ∧ readProof q'.out = some (.header :: .formula n :: (is ++ is')) ∧
      (Ids.run ⟨n + 1, []⟩ is).next ≤ i ∧ Ids.run ⟨n + 1, []⟩ (is ++ is') = ⟨i + 1, []⟩ := by
  have hp : 0 < (Proof.newWithConclusion n opt g0 c0).nextId := Nat.succ_pos n
  obtain ⟨t, is, h1, h2, h3, h4⟩ := history hp h hi
  obtain ⟨u, js, d⟩ := (call_spec short (reaches_pos hp h).1 hv hc).2 _ _ he
  have ho : Reads q.out ([.header, .formula n] ++ is) := by
    rw [h1]
    exact (newWithConclusion_reads n opt g0 c0).append h2
  have h4' : Ids.run ⟨n + 1, []⟩ is = ⟨q.nextId, []⟩ := h4
  have hd := d.ids hci
  have hr := d.ret i rfl
  have hf := ret_fresh he d.says
  rw [hd] at hf
  refine ⟨is, js, ho.read, ?_, ?_, ?_⟩
  · rw [d.out]
    exact (ho.append d.reads).read
  · rw [h4']
    show q.nextId ≤ i
    have : q.nextId + 1 ≤ q'.nextId := hf
    omega
  · rw [Ids.run_append, h4', hd, hr]

example : ((Proof.new 3 false).redundant false ⟨[(1, litAx (Lit.pos 0))], 1⟩ [⟨varName 0, .true_⟩]
    [.goal ⟨.specific 1, [.rup ⟨[(1, litAx (Lit.pos 0))], 1⟩ []]⟩]).map (·.1) = some 7 := by decide

/-- **C83.** A call with well-formed arguments panics only for a range that is empty or begins before the first constraint, and
for objectives in a proof for a problem without one. -/
theorem C83_no_panic (short : Bool) (n : Nat) (opt : Bool) (g0 : Output) (c0 : Conclusion) (cs : List Call) (q : Proof)
    (h : Reaches short (Proof.newWithConclusion n opt g0 c0) cs q) (c : Call) (hv : c.Valid) (hc : c.Covered) :
    c.exec short q = none ↔ c.Panics q := (call_spec short (reaches_pos (Nat.succ_pos n) h).1 hv hc).1

example : (Proof.new 3 false).deleteIdRange (.included (.abs 2)) (.excluded (.abs 2)) = none ∧
    (Proof.new 3 false).deleteIdRange (.included (.rel 4)) .unbounded = none ∧
    ((Proof.new 3 false).deleteIdRange (.excluded (.rel 3)) .unbounded).map (fun q => q.out) =
      some "pseudo-Boolean proof version 2.0\nf 3\ndel range -2 4\n".toList := ⟨by rfl, by rfl, by rfl⟩

/-- **C83.** A variable from `new_proof_var` has a name that a proof can contain, is no variable of the library and is never
handed out again. -/
theorem C83_proof_vars (short : Bool) (n : Nat) (opt : Bool) (g0 : Output) (c0 : Conclusion) (cs : List Call) (q : Proof)
    (h : Reaches short (Proof.newWithConclusion n opt g0 c0) cs q) :
    isName q.newProofVar.1 = true ∧ (∀ v, q.newProofVar.1 ≠ varName v) ∧
      ∀ cs' q', Reaches short q.newProofVar.2 cs' q' → q'.newProofVar.1 ≠ q.newProofVar.1 := by
  refine ⟨isName_pv _, fun v hv => ?_, fun cs' q' h' he => ?_⟩
  · injection hv with h1
    exact absurd h1 (by decide)
  · have hp := (reaches_pos (Nat.succ_pos n) h).1
    have := (reaches_pos (p := q.newProofVar.2) hp h').2.1
    have h1 : q.nextPv + 1 ≤ q'.nextPv := this
    injection he with _ he
    injection he with _ he
    have := showNat_inj he
    omega

example : (Proof.new 3 false).newProofVar.1 = "pv0".toList ∧
    (Proof.new 3 false).newProofVar.2.newProofVar.1 = "pv1".toList := ⟨by rfl, by rfl⟩

/-- **C83.** An order built with the library's functions: its definition has the constraints in the given order, the goals of
transitivity and reflexivity are numbered like the constraints they belong to, every used variable is declared once on each
side, and `use_var` returns the two declared variables. It is well-formed if its parts are. -/
theorem C83_order (name : Text) (ds : List (Con × List Deriv × Option (List Deriv))) (vs : List Text) (o : Order)
    (h : Order.Built name ds vs o) :
    o.definition = ds.map (·.1) ∧ o.transProof = ds.zipIdx.map (fun x => ⟨.specific (x.2 + 1), x.1.2.1⟩) ∧
      o.reflProof.getD [] = ds.zipIdx.filterMap (fun x => x.1.2.2.map fun d => ⟨.specific (x.2 + 1), d⟩) ∧
      (o.reflProof = none ↔ ∀ d ∈ ds, d.2.2 = none) ∧
      (∃ left right rest, o.items = .defOrder name :: .vars :: .left left :: .right right :: rest ∧ left.Nodup ∧ right.Nodup ∧
        (∀ v, (o.useVar v).1.1 ∈ left ↔ v ∈ vs) ∧ ∀ v, (o.useVar v).1.2 ∈ right ↔ v ∈ vs) ∧
      (Word name → (∀ v ∈ vs, isName v = true) →
        (∀ d ∈ ds, d.1.Valid ∧ (∀ x ∈ d.2.1, x.Valid) ∧ ∀ l, d.2.2 = some l → ∀ x ∈ l, x.Valid) → o.Valid) := by
  obtain ⟨h1, h2, h3, h4, h5, h6, h7⟩ := order_built h
  have nd : ∀ a b : Char, (o.usedVars.map ([a, b] ++ ·)).Nodup := fun a b =>
    List.Pairwise.map _ (fun x y hxy e => hxy (List.append_cancel_left e)) h6
  have mem : ∀ (a b : Char) v, a :: b :: v ∈ o.usedVars.map ([a, b] ++ ·) ↔ v ∈ vs := by
    intro a b v
    rw [← h7, List.mem_map]
    constructor
    · rintro ⟨w, hw, e⟩
      have : w = v := List.append_cancel_left (as := [a, b]) e
      exact this ▸ hw
    · exact fun hv => ⟨v, hv, rfl⟩
  have hrest : ∃ rest, o.items = .defOrder name :: .vars :: .left (o.usedVars.map (['u', '_'] ++ ·)) ::
      .right (o.usedVars.map (['v', '_'] ++ ·)) :: rest := by
    unfold Order.items
    rw [h1]
    exact ⟨_, rfl⟩
  obtain ⟨rest, hrest⟩ := hrest
  refine ⟨h2, h3, h4, h5, ⟨o.usedVars.map (['u', '_'] ++ ·), o.usedVars.map (['v', '_'] ++ ·),
    _, hrest, nd _ _, nd _ _, mem _ _, mem _ _⟩, fun hn hv hd => ⟨h1 ▸ hn, fun v hv' => hv v ((h7 v).1 hv'), ?_, ?_, ?_⟩⟩
  · rw [h2]
    intro c hc
    obtain ⟨d, hd', rfl⟩ := List.mem_map.1 hc
    exact (hd d hd').1
  · rw [h3]
    intro g hg
    obtain ⟨x, hx, rfl⟩ := List.mem_map.1 hg
    exact ⟨Nat.succ_pos _, (hd x.1 (List.fst_mem_of_mem_zipIdx hx)).2.1⟩
  · intro gs hgs g hg
    rw [hgs] at h4
    have : g ∈ reflGoals ds := h4 ▸ hg
    obtain ⟨x, hx, he⟩ := List.mem_filterMap.1 this
    cases hl : x.1.2.2 with
    | none => rw [hl] at he; cases he
    | some l =>
      rw [hl] at he
      injection he with he
      subst he
      exact ⟨Nat.succ_pos _, (hd x.1 (List.fst_mem_of_mem_zipIdx hx)).2.2 l hl⟩

/-- The lexicographic-like order of the tests of the library: `u_x1 <= v_x1`. -/
def demoOrder : Order :=
  let o := ((Order.new "simple".toList).useVar "x1".toList).2
  o.addDefinition ⟨[(-1, ⟨false, "u_x1".toList⟩), (1, ⟨false, "v_x1".toList⟩)], 0⟩ [.ops [.id (.abs 1), .id (.abs 2), .add]]
    (some [.rup ⟨[], 0⟩ []])

set_option maxRecDepth 10000 in
example : demoOrder.text false =
    some "def_order simple\n  vars\n    left u_x1\n    right v_x1\n    aux\n  end\n  def\n    -1 u_x1 1 v_x1 >= 0 ;\n  end\n  transitivity\n    vars\n      fresh_right w_x1\n    end\n    proof\n      proofgoal #1\n        pol 1 2 +\n      qed -1\n    qed\n  end\n  reflexivity\n    proof\n      proofgoal #1\n        rup  >= 0 ; \n      qed -1\n    qed\n  end\nend".toList := by
  rfl

/-! ### From proofs as data to texts -/

/-- **C83.** Every proof that the checker of C62 accepts as data can be written, and the checker accepts its text, with the
same constraints afterwards. -/
theorem C83_checked (short : Bool) (f : List Pigeons.Constr) (p : Pigeons.Proof) (s : State)
    (h : run (start f) p.lines = some s) :
    ∃ t, proofFile short f.length p .none .none = some t ∧ checkText f t = some (s, .none) :=
  checked_text short h trivial (fun _ => Iff.rfl) rfl

/-- **C83.** If the proof derives a contradiction, the text that concludes `UNSAT` with its id is accepted. -/
theorem C83_checked_unsat (short : Bool) (f : List Pigeons.Constr) (p : Pigeons.Proof) (s : State)
    (h : run (start f) p.lines = some s) (id : Nat) (r : Int) (hr : 0 < r) (hid : s.get id = some (ofConstr ⟨[], r⟩)) :
    ∃ t, proofFile short f.length p .none (.unsat (some (.abs id))) = some t ∧
      checkText f t = some (s, .unsat (some (.abs id))) := by
  refine checked_text short h ?_ (fun _ => Iff.rfl) ?_
  · intro i hi
    injection hi with hi
    subst hi
    exact (run_posIds (PosIds.start f) h).get (by rw [hid]; rfl)
  · show (match s.get id with | some d => contradictory d | none => false) = true
    rw [hid]
    refine decide_eq_true ?_
    show (Ineq.maxSlack (ofConstr ⟨[], r⟩) [] : Int) < 0
    have : Ineq.maxSlack (ofConstr ⟨[], r⟩) [] = -r := by
      simp [ofConstr, Ineq.maxSlack, maxLin]
    omega

/-- **C83.** If the checker accepts a text that concludes `UNSAT`, then the formula has no model, whatever the text is. -/
theorem C83_unsat (f : List Pigeons.Constr) (t : Text) (s : State) (id : Option CId)
    (h : checkText f t = some (s, .unsat id)) (b : Asg) : ¬ ∀ c ∈ f, c.sat b := by
  intro hb
  unfold checkText at h
  split at h
  · rename_i n is _
    by_cases hn : n = f.length
    · rw [if_pos hn] at h
      obtain ⟨ls, h1, h2⟩ := checkItems_sound h
      obtain ⟨b', h3, -⟩ := C62_models f ls s h1 b hb
      unfold concludes at h2
      split at h2
      · rename_i hc; cases hc
      · rename_i i hc
        cases hg : s.get i with
        | none => rw [hg] at h2; cases h2
        | some d =>
          rw [hg] at h2
          exact contradictory_sound h2 b' (h3 d (State.get_mem hg))
      · obtain ⟨d, hd, hc⟩ := List.any_eq_true.1 h2
        exact contradictory_sound hc b' (h3 d hd)
      · cases h2
    · rw [if_neg hn] at h; cases h
  · cases h

set_option maxRecDepth 10000 in
example : proofFile false 3 ⟨[.rup ⟨[], 1⟩ []], 5⟩ .none (.unsat (some (.abs 4))) =
    some "pseudo-Boolean proof version 2.0\nf 3\nrup  >= 1 ;\noutput NONE\nconclusion UNSAT : 4\nend pseudo-Boolean proof\n".toList := by
  rfl
example : (run (start (⟨[(1, Lit.negOf 0)], 1⟩ :: demoFormula)) [.rup ⟨[], 1⟩ []]).bind (fun s => s.get 4) =
    some (ofConstr ⟨[], 1⟩) := by decide

/-- **C83.** The proof of every reachable certified totalizer can be written and its text is accepted. -/
theorem C83_totalizer {VM : Type} [ManageVars VM] [LawfulVM VM] (short : Bool) (w : CertWorld VM) (h : w.Reach) :
    ∃ t s, proofFile short w.formula.length w.enc.proof .none .none = some t ∧ checkText w.formula t = some (s, .none) ∧
      ∀ x ∈ w.enc.cls, ∃ d, s.get x.2 = some d ∧ ∀ b, d.sat b ↔ Clause.sat b x.1 := by
  obtain ⟨s, h1, -, h3⟩ := C63_accepted w h
  obtain ⟨t, h4, h5⟩ := C83_checked short w.formula w.enc.proof s h1
  exact ⟨t, s, h4, h5, h3⟩

/-- **C83.** The proof of every reachable certified generalized totalizer can be written and its text is accepted. -/
theorem C83_gte {VM : Type} [ManageVars VM] [LawfulVM VM] (short : Bool) (w : CertGteWorld VM) (h : w.Reach) :
    ∃ t s, proofFile short w.formula.length w.enc.proof .none .none = some t ∧ checkText w.formula t = some (s, .none) ∧
      ∀ x ∈ w.enc.cls, ∃ d, s.get x.2 = some d ∧ ∀ b, d.sat b ↔ Clause.sat b x.1 := by
  obtain ⟨s, h1, -, h3⟩ := C66_accepted w h
  obtain ⟨t, h4, h5⟩ := C83_checked short w.formula w.enc.proof s h1
  exact ⟨t, s, h4, h5, h3⟩

/-- **C83.** The proof of every reachable certified inverted generalized totalizer can be written and its text is
accepted. -/
theorem C83_inverted {VM : Type} [ManageVars VM] [LawfulVM VM] (short : Bool) (w : CertInvWorld VM) (h : w.Reach) :
    ∃ t s, proofFile short w.formula.length w.enc.enc.proof .none .none = some t ∧ checkText w.formula t = some (s, .none) := by
  obtain ⟨s, h1, -⟩ := C68_accepted w h
  obtain ⟨t, h4, h5⟩ := C83_checked short w.formula w.enc.enc.proof s h1
  exact ⟨t, s, h4, h5⟩

/-- **C83.** The same for the proofs that the certified encodings of constraints work on. -/
theorem C83_checked_proof {VM : Type} [ManageVars VM] (short : Bool) (f : List Pigeons.Constr) (vm : VM) (p : Pigeons.Proof)
    (s : State) (h : CheckedProof f vm p s) :
    ∃ t, proofFile short f.length p .none .none = some t ∧ checkText f t = some (s, .none) :=
  C83_checked short f p s h.run

/-! ### Violations -/

/-- **C83 is violated.** The constant of an objective is not written: the line says that the objective has none. -/
theorem C83_violated_offset :
    ∃ (o : Obj) (q : Proof) (t : Text) (is : List Item), (Call.objEquals o).Valid ∧
      (Call.objEquals o).exec false (Proof.new 1 true) = some (none, q) ∧ q.out = (Proof.new 1 true).out ++ t ∧
      readProof t = some is ∧ ¬ (Call.objEquals o).Says (Proof.new 1 true).nextId is ∧ is = [.objEq { o with offset := 0 }] := by
  refine ⟨⟨[(2, ⟨false, "x1".toList⟩)], 5⟩, _, "eobj 2 x1 ;\n".toList, [.objEq ⟨[(2, ⟨false, "x1".toList⟩)], 0⟩], ?_, rfl, ?_, ?_, ?_, rfl⟩
  · intro t ht
    rw [List.mem_singleton.1 ht]
    show isName "x1".toList = true
    decide
  · rfl
  · rfl
  · intro h
    have h' : [Item.objEq ⟨[(2, ⟨false, "x1".toList⟩)], 0⟩] = [.objEq ⟨[(2, ⟨false, "x1".toList⟩)], 5⟩] := h
    exact absurd h' (by decide)

/-- **C83 is violated.** Updating the objective to one with a constant loses the constant. -/
theorem C83_violated_obju_offset :
    ∃ (o : Obj) (q : Proof) (t : Text) (is : List Item), (Call.updateObjective (.diff o)).Valid ∧
      (Call.updateObjective (.diff o)).exec false (Proof.new 1 true) = some (none, q) ∧ q.out = (Proof.new 1 true).out ++ t ∧
      readProof t = some is ∧ ¬ (Call.updateObjective (.diff o)).Says (Proof.new 1 true).nextId is := by
  refine ⟨⟨[(2, ⟨false, "x1".toList⟩)], 5⟩, _, "obju diff 2 x1 ;\n".toList, [.objDiff ⟨[(2, ⟨false, "x1".toList⟩)], 0⟩], ?_, rfl, ?_, ?_, ?_⟩
  · intro t ht
    rw [List.mem_singleton.1 ht]
    show isName "x1".toList = true
    decide
  · rfl
  · rfl
  · intro h
    have h' : [Item.objDiff ⟨[(2, ⟨false, "x1".toList⟩)], 0⟩] = [.objDiff ⟨[(2, ⟨false, "x1".toList⟩)], 5⟩] := h
    exact absurd h' (by decide)

/-- **C83 is violated.** A plain substitution writes a line without a keyword, which cannot be read. -/
theorem C83_violated_substitute :
    ∃ (subs : List Sub) (q : Proof) (t : Text), (Call.substitute subs).Valid ∧
      (Call.substitute subs).exec false (Proof.new 1 false) = some (none, q) ∧ q.out = (Proof.new 1 false).out ++ t ∧
      readProof t = none := by
  refine ⟨[⟨"x1".toList, .true_⟩], _, "x1 -> 1\n".toList, ?_, rfl, ?_, ?_⟩
  · intro s hs
    rw [List.mem_singleton.1 hs]
    exact ⟨by decide, fun a ha => by cases ha⟩
  · rfl
  · rfl

/-- The update of the objective for the next theorem: with a goal and its derivation. -/
def demoObju : Call := .updateObjective (.new ⟨[(1, ⟨false, "x1".toList⟩)], 0⟩ [⟨.specific 1, [.rup ⟨[(1, ⟨false, "x1".toList⟩)], 1⟩ []]⟩])

/-- **C83 is violated.** The goals of the sub-proof of an update of the objective get no ids, although those of other
sub-proofs do: every id that is returned afterwards is wrong. -/
theorem C83_violated_obju_ids :
    demoObju.Valid ∧ demoObju.Covered ∧ ∃ (q q' : Proof) (t : Text) (is : List Item) (i : Nat),
      demoObju.exec false (Proof.new 1 true) = some (none, q) ∧
      (Call.reverseUnitProp ⟨[], 0⟩ []).exec false q = some (some i, q') ∧ q'.out = (Proof.new 1 true).out ++ t ∧
      readProof t = some is ∧ Ids.run ⟨2, []⟩ is = ⟨5, []⟩ ∧ i = 2 := by
  have hx : (⟨[(1, ⟨false, "x1".toList⟩)], 1⟩ : Con).Valid := by
    intro t ht
    rw [List.mem_singleton.1 ht]
    show isName "x1".toList = true
    decide
  refine ⟨⟨hx, ?_⟩, rfl, _, _, "obju new 1 x1 ; begin\n  proofgoal #1\n    rup 1 x1 >= 1 ; \n  qed -1\nend\n\nrup  >= 0 ;\n".toList,
    [.objNew ⟨[(1, ⟨false, "x1".toList⟩)], 0⟩ true, .goal (.specific 1), .rup ⟨[(1, ⟨false, "x1".toList⟩)], 1⟩ [],
      .qed (some (.rel 1)), .endBlock, .rup ⟨[], 0⟩ []], 2, rfl, rfl, ?_, ?_, by decide, rfl⟩
  · intro g hg
    rw [List.mem_singleton.1 hg]
    refine ⟨Nat.one_pos, fun d hd => ?_⟩
    rw [List.mem_singleton.1 hd]
    exact ⟨hx, by simp⟩
  · rfl
  · rfl

end ProofText
end RustSat
