import Verif.Lemmas.Define3
/-
The invariant of a database together with the clauses produced for it, over histories.
-/
namespace RustSat
namespace TotDb

theorem outAt_lt {db : Db} {i k v : Nat} {l : Lit} (h : OutAt db i k v l) : i < db.nodes.length := by
  apply Db.node_lt
  intro hn
  obtain ⟨s, hs⟩ := h
  rw [hn] at hs
  cases hs

theorem blank_out {n : Node} (hb : n.blank) {k v : Nat} {d : LitData} (h : n.outData k = some (v, d)) : d = .none := by
  cases n with
  | leaf => cases h
  | dummy => cases h
  | unit lits =>
    simp only [Node.outData, Option.map_eq_some_iff] at h
    obtain ⟨x, hx, e⟩ := h
    cases e
    exact hb _ (List.mem_of_getElem? hx)
  | general lits => exact hb _ (List.mem_of_getElem? h)

theorem ExtD.outAt {dm : Prop} {L : List Lit} {a b : Db} (h : ExtD dm L a b) {i k v : Nat} {l : Lit} :
    OutAt b i k v l ↔ OutAt a i k v l := by
  constructor
  · intro ho
    rcases Nat.lt_or_ge i a.nodes.length with hi | hi
    · unfold OutAt at ho ⊢; rw [h.node hi] at ho; exact ho
    · exfalso
      have hlt := outAt_lt ho
      obtain ⟨s, hs⟩ := ho
      obtain ⟨nn, e, hb, -⟩ := h
      have hn : b.node i ∈ nn := by
        have := Db.getElem?_node hlt
        rw [e, List.getElem?_append_right hi] at this
        exact List.mem_of_getElem? this
      exact absurd (blank_out (hb _ hn) hs) (by intro h; cases h)
  · intro ho
    have hi := outAt_lt ho
    unfold OutAt at ho ⊢; rw [h.node hi]; exact ho

theorem ExtD.leaf {dm : Prop} {L : List Lit} {a b : Db} (h : ExtD dm L a b) {j : Nat} {l : Lit}
    (hl : b.node j = .leaf l) : a.node j = .leaf l ∨ l ∈ L := by
  rcases Nat.lt_or_ge j a.nodes.length with hi | hi
  · left; rw [← h.node hi]; exact hl
  · right
    have hlt : j < b.nodes.length := Db.node_lt (by rw [hl]; intro h; cases h)
    obtain ⟨nn, e, -, hL, -⟩ := h
    have := Db.getElem?_node hlt
    rw [e, List.getElem?_append_right hi, hl] at this
    exact hL l (List.mem_of_getElem? this)

theorem ExtD.leaf_mono {dm : Prop} {L : List Lit} {a b : Db} (h : ExtD dm L a b) {j : Nat} {l : Lit}
    (hl : a.node j = .leaf l) : b.node j = .leaf l := by
  rw [h.node (Db.node_lt (by rw [hl]; intro h; cases h))]; exact hl

/-- No node is a dummy. -/
def AllReal (db : Db) : Prop := ∀ i, i < db.nodes.length → db.node i ≠ .dummy

theorem ExtD.allReal {L : List Lit} {a b : Db} (h : Ext L a b) (ha : AllReal a) : AllReal b := by
  intro j hj hd
  rcases Nat.lt_or_ge j a.nodes.length with hi | hi
  · rw [h.node hi] at hd; exact ha j hi hd
  · obtain ⟨nn, e, -, -, hdm⟩ := h
    have := Db.getElem?_node hj
    rw [e, List.getElem?_append_right hi, hd] at this
    exact hdm (List.mem_of_getElem? this)

theorem AllReal.noDummy {db : Db} (hw : db.WF) (h : AllReal db) : NoDummy db := by
  intro i l r hs
  obtain ⟨h1, h2⟩ := hw.children hs
  have hi : i < db.nodes.length := Db.node_lt (by intro hn; rw [hn] at hs; cases hs)
  exact ⟨h _ (by omega), h _ (by omega)⟩

theorem AllReal.rel {R : LitData → LitData → Prop} {db db' : Db} (hr : DbRel R db db') (h : AllReal db) : AllReal db' :=
  fun i hi hd => h i (by rw [← hr.len]; exact hi) (hr.dummy_iff.1 hd)

/-- The value depends on the literals of leaves only. -/
theorem value_congr_leaves {db : Db} (hw : db.WF) {T T' : Lit → Bool}
    (h : ∀ j l, db.node j = .leaf l → T l = T' l) : ∀ id, value db T id = value db T' id := by
  intro id
  induction id using Nat.strongRecOn with
  | _ id ih =>
    rw [value_eq hw, value_eq hw]
    cases hn : db.node id with
    | dummy => rfl
    | leaf l => simp only [Node.shape]; rw [h id l hn]
    | unit lits d nl l r =>
      obtain ⟨h1, h2⟩ := hw.children (l := l) (r := r) (id := id) (by rw [hn]; rfl)
      simp only [Node.shape, conVal]
      rw [ih l.id h1, ih r.id h2]
    | general lits d nl m l r =>
      obtain ⟨h1, h2⟩ := hw.children (l := l) (r := r) (id := id) (by rw [hn]; rfl)
      simp only [Node.shape, conVal]
      rw [ih l.id h1, ih r.id h2]

/-- Every assignment can be changed on the output variables to make all outputs strict. -/
theorem strict_ext {db : Db} {n : Nat} (hw : db.WF) (ha : AuxOK db n) (a : Asg) :
    ∃ b : Asg, Strict db b ∧ (∀ v, (∀ i k w l, OutAt db i k w l → l.var ≠ v) → b v = a v) ∧
      ∀ j l, db.node j = .leaf l → l.holds b = l.holds a := by
  classical
  let P : Nat → Prop := fun v => ∃ i k w l, OutAt db i k w l ∧ l.var = v
  let b : Asg := fun v => if P v then
    decide (∃ i k w l, OutAt db i k w l ∧ l.var = v ∧ w ≤ value db (trueLits a) i) else a v
  have hout : ∀ v, (∀ i k w l, OutAt db i k w l → l.var ≠ v) → b v = a v := by
    intro v hv
    have : ¬ P v := fun ⟨i, k, w, l, h1, h2⟩ => hv i k w l h1 h2
    simp only [b, if_neg this]
  have hleaf : ∀ j l, db.node j = .leaf l → l.holds b = l.holds a := by
    intro j l hl
    apply Lit.holds_congr
    exact hout _ fun i k w x hx he => ha.disj i k w x j l hx hl he.symm
  have hval : ∀ i, value db (trueLits b) i = value db (trueLits a) i :=
    value_congr_leaves hw fun j l hl => hleaf j l hl
  refine ⟨b, fun i k w l ho => ?_, hout, hleaf⟩
  obtain ⟨hpos, -⟩ := ha.out i k w l ho
  rw [hval, hpos, Lit.holds_pos]
  have hP : P l.var := ⟨i, k, w, l, ho, rfl⟩
  simp only [b, if_pos hP, decide_eq_true_eq]
  constructor
  · rintro ⟨i', k', w', l', h1, h2, h3⟩
    have hl' : l' = l := by rw [(ha.out _ _ _ _ h1).1, hpos, h2]
    subst hl'
    obtain ⟨rfl, rfl⟩ := ha.inj _ _ _ _ _ _ _ h1 ho
    obtain ⟨s1, e1⟩ := h1
    obtain ⟨s2, e2⟩ := ho
    rw [e1] at e2
    cases e2
    exact h3
  · exact fun h => ⟨i, k, w, l, ho, rfl, h⟩

/-- The invariant of a database, the clauses produced for it, the input literals and the variables handed out. -/
structure Core (db : Db) (n : Nat) (cls : ClauseSet) (ins : List Lit) (own : List Nat) : Prop where
  wf : db.WF
  aux : AuxOK db n
  leafIn : ∀ j l, db.node j = .leaf l → l ∈ ins
  outOwn : ∀ i k v l, OutAt db i k v l → l.var ∈ own
  ownLt : ∀ v ∈ own, v < n
  insLt : ∀ l ∈ ins, l.var < n
  disj : ∀ l ∈ ins, l.var ∉ own
  soundIf : SoundIf db cls
  soundOnly : NoDummy db → SoundOnlyIf db cls
  strict : ∀ b, Strict db b → ClauseSet.sat b cls
  vars : VarsOK db cls

namespace Core
variable {db : Db} {n : Nat} {cls : ClauseSet} {ins : List Lit} {own : List Nat}

theorem step {VM : Type} [ManageVars VM] {st st' : St VM}
    (h : Core st.db (ManageVars.nUsed st.vm) st.cls ins own) (hs : Step st st') :
    Core st'.db (ManageVars.nUsed st'.vm) st'.cls ins
      (own ++ List.range' (ManageVars.nUsed st.vm) (ManageVars.nUsed st'.vm - ManageVars.nUsed st.vm)) := by
  obtain ⟨new, e, c1, c2, c3, c4⟩ := hs.cls
  have hu := hs.used
  refine ⟨hs.ref.wf h.wf, hs.aux h.aux, fun j l hl => h.leafIn j l (hs.ref.leaf.1 hl), fun i k v l ho => ?_,
    fun v hv => ?_, fun l hl => Nat.lt_of_lt_of_le (h.insLt l hl) hu, fun l hl hm => ?_, by rw [e]; exact c1 _ h.soundIf,
    fun hn => by
      have hn0 : NoDummy st.db := fun i l r hsh => by
        obtain ⟨h1, h2⟩ := hn i l r (by rw [hs.ref.shape]; exact hsh)
        exact ⟨fun h' => h1 (hs.ref.dummy_iff.2 h'), fun h' => h2 (hs.ref.dummy_iff.2 h')⟩
      rw [e]; exact c2 hn0 _ (h.soundOnly hn0), fun b hb => ?_, ?_⟩
  · rw [List.mem_append, List.mem_range'_1]
    rcases hs.fresh i k v l ho with h' | h'
    · exact Or.inl (h.outOwn i k v l h')
    · exact Or.inr (by omega)
  · rw [List.mem_append, List.mem_range'_1] at hv
    rcases hv with hv | hv
    · have := h.ownLt v hv; omega
    · omega
  · rw [List.mem_append, List.mem_range'_1] at hm
    rcases hm with hm | hm
    · exact h.disj l hl hm
    · have := h.insLt l hl; omega
  · rw [e, ClauseSet.sat_append]
    exact ⟨h.strict b (hb.of_ref (fun _ _ => keep_of_ref) hs.ref h.wf), c3 b hb⟩
  · rw [e]
    intro c hc
    rcases List.mem_append.1 hc with hc | hc
    · exact h.vars.ref (fun _ _ => keep_of_ref) hs.ref c hc
    · exact c4 c hc

theorem ext {dm : Prop} {L : List Lit} {db' : Db} (h : Core db n cls ins own) (he : ExtD dm L db db') (hw : db'.WF)
    (hL : ∀ l ∈ L, l ∈ ins) : Core db' n cls ins own := by
  have hleaf : ∀ j l, db'.node j = .leaf l → l ∈ ins := fun j l hl => by
    rcases he.leaf hl with h' | h'
    · exact h.leafIn j l h'
    · exact hL l h'
  have hdata : ∀ i k v l s, (db'.node i).outData k = some (v, .lit l s) →
      (db.node i).outData k = some (v, .lit l s) ∧ i < db.nodes.length := by
    intro i k v l s hs
    have ho : OutAt db i k v l := he.outAt.1 ⟨s, hs⟩
    have hi := outAt_lt ho
    rw [he.node hi] at hs
    exact ⟨hs, hi⟩
  refine ⟨hw, ⟨fun i l hl => h.insLt l (hleaf i l hl), fun i k v l ho => h.aux.out i k v l (he.outAt.1 ho),
      fun i k v l j l' ho hl => ?_, fun i k v i' k' v' l h1 h2 => h.aux.inj i k v i' k' v' l (he.outAt.1 h1) (he.outAt.1 h2)⟩,
    hleaf, fun i k v l ho => h.outOwn i k v l (he.outAt.1 ho), h.ownLt, h.insLt, h.disj, ?_, ?_, fun b hb => ?_, ?_⟩
  · intro heq
    have := h.outOwn i k v l (he.outAt.1 ho)
    rw [← heq] at this
    exact h.disj l' (hleaf j l' hl) this
  · intro i k v l s hs hi b hb T hT hv
    obtain ⟨h1, h2⟩ := hdata i k v l s hs
    rw [he.value h.wf T h2, he.node h2, he.att h.wf hw h2] at hv
    exact h.soundIf i k v l s h1 hi b hb T hT hv
  · intro hn i k v l s hs hi b hb hl
    have hn0 : NoDummy db := fun i l r hsh => by
      have hil : i < db.nodes.length := Db.node_lt (by intro hn; rw [hn] at hsh; cases hsh)
      obtain ⟨c1, c2⟩ := h.wf.children hsh
      obtain ⟨h1, h2⟩ := hn i l r (by rw [he.node hil]; exact hsh)
      rw [he.node (by omega)] at h1
      rw [he.node (by omega)] at h2
      exact ⟨h1, h2⟩
    obtain ⟨h1, h2⟩ := hdata i k v l s hs
    rw [he.value h.wf _ h2]
    exact h.soundOnly hn0 i k v l s h1 hi b hb hl
  · apply h.strict b
    intro i k v l ho
    have hi := outAt_lt ho
    rw [hb i k v l (he.outAt.2 ho), he.value h.wf _ hi]
  · intro c hc x hx
    rcases h.vars c hc x hx with ⟨j, l, h1, h2⟩ | ⟨i, k, v, l, h1, h2⟩
    · exact Or.inl ⟨j, l, he.leaf_mono h1, h2⟩
    · exact Or.inr ⟨i, k, v, l, he.outAt.2 h1, h2⟩

theorem add (h : Core db n cls ins own) (lits : List Lit) (hl : ∀ l ∈ lits, l.var < n ∧ l.var ∉ own) :
    Core db n cls (ins ++ lits) own :=
  { h with
    leafIn := fun j l hj => List.mem_append_left _ (h.leafIn j l hj)
    insLt := fun l hm => (List.mem_append.1 hm).elim (h.insLt l) fun h' => (hl l h').1
    disj := fun l hm => (List.mem_append.1 hm).elim (h.disj l) fun h' => (hl l h').2 }

theorem more (h : Core db n cls ins own) {n' : Nat} (hn : n ≤ n') : Core db n' cls ins own :=
  { h with
    aux := ⟨fun i l hl => Nat.lt_of_lt_of_le (h.aux.leaf i l hl) hn,
      fun i k v l ho => ⟨(h.aux.out i k v l ho).1, Nat.lt_of_lt_of_le (h.aux.out i k v l ho).2 hn⟩, h.aux.disj, h.aux.inj⟩
    ownLt := fun v hv => Nat.lt_of_lt_of_le (h.ownLt v hv) hn
    insLt := fun l hl => Nat.lt_of_lt_of_le (h.insLt l hl) hn }

/-- Every assignment of the inputs extends to a strict model of the clauses. -/
theorem complete (h : Core db n cls ins own) (a : Asg) :
    ∃ b : Asg, (∀ v, v ∉ own → b v = a v) ∧ Strict db b ∧ ClauseSet.sat b cls ∧
      ∀ l ∈ ins, l.holds b = l.holds a := by
  obtain ⟨b, h1, h2, -⟩ := strict_ext h.wf h.aux a
  have hout : ∀ v, v ∉ own → b v = a v := fun v hv => h2 v fun i k w l ho he => hv (by
    rw [← he]; exact h.outOwn i k w l ho)
  exact ⟨b, hout, h1, h.strict b h1, fun l hl => Lit.holds_congr (hout _ (h.disj l hl))⟩

end Core

/-! ### Resetting what is encoded -/

theorem removeSemantics_rel (sem : Semantics) (d : LitData) :
    (∀ l s, d = .lit l s → ∃ s', d.removeSemantics sem = .lit l s') ∧
      (∀ l s', d.removeSemantics sem = .lit l s' → ∃ s, d = .lit l s) ∧
      ((d.removeSemantics sem).hasIf = true → d.hasIf = true) ∧
      ((d.removeSemantics sem).hasOnlyIf = true → d.hasOnlyIf = true) ∧
      (sem.hasIf = true → (d.removeSemantics sem).hasIf = false) ∧
      (sem.hasOnlyIf = true → (d.removeSemantics sem).hasOnlyIf = false) := by
  match d with
  | .none => simp [LitData.removeSemantics, LitData.hasIf, LitData.hasOnlyIf]
  | .lit l none => simp [LitData.removeSemantics, LitData.hasIf, LitData.hasOnlyIf]
  | .lit l (some s) =>
    cases s <;> cases sem <;>
      simp [LitData.removeSemantics, LitData.hasIf, LitData.hasOnlyIf, Semantics.remove, Semantics.hasIf,
        Semantics.hasOnlyIf]

/-- The relation of resetting an output. -/
def LitReset (sem : Semantics) (d d' : LitData) : Prop := d' = d.removeSemantics sem

theorem resetEncoded_node (db : Db) (sem : Semantics) (i : Nat) :
    (db.resetEncoded sem).node i = match db.node i with
      | .unit lits d nl l r => .unit (lits.map fun x => x.removeSemantics sem) d nl l r
      | .general lits d nl m l r => .general (lits.map fun x => (x.1, x.2.removeSemantics sem)) d nl m l r
      | n => n := by
  unfold Db.resetEncoded Db.node
  simp only [List.getD_eq_getElem?_getD, List.getElem?_map]
  cases db.nodes[i]? with
  | none => rfl
  | some n => cases n <;> rfl

theorem resetEncoded_rel (db : Db) (sem : Semantics) : DbRel (LitReset sem) db (db.resetEncoded sem) := by
  refine ⟨by simp [Db.resetEncoded], rfl, rfl, fun i => ?_⟩
  rw [resetEncoded_node]
  cases db.node i with
  | leaf => rfl
  | dummy => trivial
  | unit lits d nl l r =>
    refine ⟨rfl, rfl, rfl, rfl, by simp, fun i x y hx hy => ?_⟩
    rw [List.getElem?_map, hx] at hy
    cases hy
    rfl
  | general lits d nl m l r =>
    refine ⟨rfl, rfl, rfl, rfl, rfl, by simp [Function.comp_def], fun i x y hx hy => ?_⟩
    rw [List.getElem?_map, hx] at hy
    cases hy
    rfl

theorem reset_outAt (db : Db) (sem : Semantics) {i k v : Nat} {l : Lit} :
    OutAt (db.resetEncoded sem) i k v l ↔ OutAt db i k v l := by
  constructor
  · rintro ⟨s, hs⟩
    obtain ⟨d, h1, h2⟩ := ((resetEncoded_rel db sem).node i).outData_bwd hs
    obtain ⟨s', hs'⟩ := (removeSemantics_rel sem d).2.1 l s h2.symm
    exact ⟨s', by rw [h1, hs']⟩
  · rintro ⟨s, hs⟩
    obtain ⟨d, h1, h2⟩ := ((resetEncoded_rel db sem).node i).outData_fwd hs
    obtain ⟨s', hs'⟩ := (removeSemantics_rel sem (.lit l s)).1 l s rfl
    exact ⟨s', by rw [h1, h2, hs']⟩

theorem Core.reset {db : Db} {n : Nat} {cls : ClauseSet} {ins : List Lit} {own : List Nat}
    (h : Core db n cls ins own) (sem : Semantics) : Core (db.resetEncoded sem) n cls ins own := by
  have hr := resetEncoded_rel db sem
  have hdata : ∀ i k v l s, ((db.resetEncoded sem).node i).outData k = some (v, .lit l s) →
      ∃ s', (db.node i).outData k = some (v, .lit l s') ∧
        LitData.lit l s = (LitData.lit l s').removeSemantics sem := by
    intro i k v l s hs
    obtain ⟨d, h1, h2⟩ := (hr.node i).outData_bwd hs
    obtain ⟨s', rfl⟩ := (removeSemantics_rel sem d).2.1 l s h2.symm
    exact ⟨s', h1, h2⟩
  refine ⟨hr.wf h.wf, ⟨fun i l hl => h.aux.leaf i l (hr.leaf.1 hl), fun i k v l ho => h.aux.out i k v l ((reset_outAt db sem).1 ho),
      fun i k v l j l' ho hl => h.aux.disj i k v l j l' ((reset_outAt db sem).1 ho) (hr.leaf.1 hl),
      fun i k v i' k' v' l h1 h2 => h.aux.inj i k v i' k' v' l ((reset_outAt db sem).1 h1) ((reset_outAt db sem).1 h2)⟩,
    fun j l hl => h.leafIn j l (hr.leaf.1 hl), fun i k v l ho => h.outOwn i k v l ((reset_outAt db sem).1 ho), h.ownLt,
    h.insLt, h.disj, ?_, ?_, fun b hb => h.strict b ?_, ?_⟩
  · intro i k v l s hs hi b hb T hT hv
    obtain ⟨s', h1, h2⟩ := hdata i k v l s hs
    rw [h2] at hi
    rw [hr.value h.wf, (hr.node i).isGeneral, hr.att h.wf] at hv
    exact h.soundIf i k v l s' h1 ((removeSemantics_rel sem _).2.2.1 hi) b hb T hT hv
  · intro hn i k v l s hs hi b hb hl
    obtain ⟨s', h1, h2⟩ := hdata i k v l s hs
    rw [h2] at hi
    rw [hr.value h.wf]
    have hn0 : NoDummy db := fun i l r hsh => by
      obtain ⟨h1, h2⟩ := hn i l r (by rw [hr.shape]; exact hsh)
      exact ⟨fun h' => h1 (hr.dummy_iff.2 h'), fun h' => h2 (hr.dummy_iff.2 h')⟩
    exact h.soundOnly hn0 i k v l s' h1 ((removeSemantics_rel sem _).2.2.2.1 hi) b hb hl
  · intro i k v l ho
    rw [hb i k v l ((reset_outAt db sem).2 ho), hr.value h.wf]
  · intro c hc x hx
    rcases h.vars c hc x hx with ⟨j, l, h1, h2⟩ | ⟨i, k, v, l, h1, h2⟩
    · exact Or.inl ⟨j, l, hr.leaf.2 h1, h2⟩
    · exact Or.inr ⟨i, k, v, l, (reset_outAt db sem).2 h1, h2⟩

/-- After resetting the "if" semantics no clauses are needed for them. -/
theorem reset_soundIf (db : Db) (C : ClauseSet) : SoundIf (db.resetEncoded .if_) C := by
  intro i k v l s hs hi
  exfalso
  obtain ⟨d, h1, h2⟩ := ((resetEncoded_rel db .if_).node i).outData_bwd hs
  rw [h2, (removeSemantics_rel .if_ d).2.2.2.2.1 rfl] at hi
  cases hi

theorem reset_soundOnlyIf (db : Db) (C : ClauseSet) : SoundOnlyIf (db.resetEncoded .onlyIf) C := by
  intro i k v l s hs hi
  exfalso
  obtain ⟨d, h1, h2⟩ := ((resetEncoded_rel db .onlyIf).node i).outData_bwd hs
  rw [h2, (removeSemantics_rel .onlyIf d).2.2.2.2.2 rfl] at hi
  cases hi

/-- With all literals true, a node with consecutive values has the largest value. -/
theorem value_all {db : Db} (hw : db.WF) : ∀ id, (db.node id).isGeneral = false →
    value db (fun _ => true) id = (db.node id).len := by
  intro id
  induction id using Nat.strongRecOn with
  | _ id ih =>
    intro hg
    rw [value_eq hw]
    cases hn : db.node id with
    | dummy => rfl
    | leaf l => rfl
    | general => rw [hn] at hg; cases hg
    | unit lits d nl l r =>
      obtain ⟨h1, h2⟩ := hw.children (l := l) (r := r) (id := id) (by rw [hn]; rfl)
      have hok := hw.nodes id _ (Db.getElem?_node (Db.node_lt (by rw [hn]; intro h; cases h)))
      rw [hn] at hok
      obtain ⟨-, -, u1, u2, e⟩ := hok
      simp only [Node.shape, Node.len, conVal]
      rw [e, conLen_eq, conLen_eq, ih l.id h1 u1.notGeneral, ih r.id h2 u2.notGeneral, NodeCon.map_eq, NodeCon.map_eq,
        u1.mult, u2.mult, Nat.mul_one, Nat.mul_one]

end TotDb
end RustSat
