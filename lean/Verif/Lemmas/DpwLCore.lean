import Verif.Lemmas.DpwLoc
/-
The invariant of the clauses of the watchdog in terms of the local properties: preserved by encoding, reserving,
resetting and by adding nodes.
-/
namespace RustSat
namespace TotDb

variable {VM : Type} [ManageVars VM]

/-- All encoded outputs follow from levels of the children, and the clauses hold for all strict levels. -/
structure LCore (db : Db) (cls : ClauseSet) : Prop where
  plain : ∀ i, (db.node i).isGeneral = false
  sound : ∀ m i, LSound db cls m i
  sat : ∀ W b, StrictW db W b → ClauseSet.sat b cls

theorem hasLit_iff {db : Db} {i k : Nat} {l : Lit} : HasLit db i k .if_ l ↔
    (db.node i = .leaf l ∧ k = 0) ∨ ∃ s, (db.node i).isGeneral = false ∧ (db.node i).outData k = some (k + 1, .lit l (some s)) ∧ s.hasIf = true := by
  unfold HasLit
  constructor
  · rintro (h | ⟨s, h1, h2, h3, h4⟩)
    · exact Or.inl h
    · exact Or.inr ⟨s, h1, h2, h3 rfl⟩
  · rintro (h | ⟨s, h1, h2, h3⟩)
    · exact Or.inl h
    · exact Or.inr ⟨s, h1, h2, fun _ => h3, fun h => by cases h⟩

theorem outData_unit {n : Node} (hg : n.isGeneral = false) {k v : Nat} {d : LitData} (h : n.outData k = some (v, d)) : v = k + 1 := by
  cases n with
  | leaf => cases h
  | dummy => cases h
  | general => cases hg
  | unit lits =>
    simp only [Node.outData, Option.map_eq_some_iff, Prod.mk.injEq] at h
    obtain ⟨_, _, h, _⟩ := h
    exact h.symm

theorem LCore.step {st st' : St VM} (h : LCore st.db st.cls) (hl : LStep st st') (hr : DbRef st.db st'.db) : LCore st'.db st'.cls := by
  obtain ⟨new, e, s1, s2⟩ := hl
  refine ⟨fun i => by rw [(hr.node i).isGeneral]; exact h.plain i, fun m i => by rw [e]; exact s2 _ m i (h.sound m i), fun W b hb => ?_⟩
  rw [e, ClauseSet.sat_append]
  exact ⟨h.sat W b (hb.ref hr), s1 W b hb⟩

theorem node_ext_ge {dm : Prop} {L : List Lit} {a b : Db} (h : ExtD dm L a b) {i : Nat} (hi : a.nodes.length ≤ i) : (b.node i).blank := by
  obtain ⟨s, h1, h2, -⟩ := h
  unfold Db.node
  rw [h1, List.getD_eq_getElem?_getD, List.getElem?_append_right hi]
  cases hx : s[i - a.nodes.length]? with
  | none => trivial
  | some n => exact h2 n (List.mem_of_getElem? hx)

theorem blank_noOut {n : Node} (h : n.blank) {k v : Nat} {l : Lit} {s : Option Semantics} : n.outData k ≠ some (v, .lit l s) := by
  intro hd
  cases n with
  | leaf => cases hd
  | dummy => cases hd
  | general lits =>
    have := h (v, .lit l s) (List.mem_of_getElem? hd)
    cases this
  | unit lits =>
    simp only [Node.outData, Option.map_eq_some_iff, Prod.mk.injEq] at hd
    obtain ⟨d, h1, -, rfl⟩ := hd
    have := h _ (List.mem_of_getElem? h1)
    cases this

theorem LevelOK.congr {db db' : Db} {b : Asg} {j w : Nat} (h : db'.node j = db.node j) : LevelOK db' b j w ↔ LevelOK db b j w := by
  unfold LevelOK HasLit
  rw [h]

/-- Local soundness depends only on the node and its children. -/
theorem LSound.congr {db db' : Db} {C : ClauseSet} {m i : Nat} (h : db'.node i = db.node i)
    (hc : ∀ l r, (db.node i).shape = .inner l r → db'.node l.id = db.node l.id ∧ db'.node r.id = db.node r.id) (hs : LSound db C m i) : LSound db' C m i := by
  intro lc rc hsh b hb wl wr h1 h2 h3 k l hl hk
  rw [h] at hsh
  obtain ⟨c1, c2⟩ := hc lc rc hsh
  exact hs lc rc hsh b hb wl wr ((LevelOK.congr c1).1 h1) ((LevelOK.congr c2).1 h2) h3 k l (by unfold HasLit at hl ⊢; rw [h] at hl; exact hl) hk

/-- No outputs, no obligations. -/
theorem LSound.blank {db : Db} {C : ClauseSet} {m i : Nat} (h : ∀ k l, (db.node i).shape ≠ .leaf l → ¬ HasLit db i k .if_ l) : LSound db C m i := by
  intro lc rc hsh b hb wl wr h1 h2 h3 k l hl hk
  exact absurd hl (h k l (by rw [hsh]; intro hh; cases hh))

theorem blank_hasLit {db : Db} {i : Nat} (h : (db.node i).blank) (k : Nat) (l : Lit) (hs : (db.node i).shape ≠ .leaf l) : ¬ HasLit db i k .if_ l := by
  rintro (⟨h1, -⟩ | ⟨s, -, h1, -⟩)
  · rw [h1] at hs; exact hs rfl
  · exact blank_noOut h h1

theorem LCore.ext {dm : Prop} {L : List Lit} {a b : Db} {cls : ClauseSet} (h : LCore a cls) (hw : a.WF) (hx : ExtD dm L a b)
    (hp : ∀ i, (b.node i).isGeneral = false) : LCore b cls := by
  refine ⟨hp, fun m i => ?_, fun W x hb => h.sat W x ⟨fun i k v l ho => ?_, fun i l hl => ?_, fun i l r hs => ?_⟩⟩
  · rcases Nat.lt_or_ge i a.nodes.length with hi | hi
    · refine (h.sound m i).congr (hx.node hi) fun l r hs => ?_
      obtain ⟨c1, c2⟩ := hw.children hs
      exact ⟨hx.node (by omega), hx.node (by omega)⟩
    · exact LSound.blank (blank_hasLit (node_ext_ge hx hi))
  · have hi : i < a.nodes.length := Db.node_lt (by rintro h; obtain ⟨s, hs⟩ := ho; rw [h] at hs; cases hs)
    refine hb.out i k v l ?_
    unfold OutAt; rw [hx.node hi]; exact ho
  · have hi : i < a.nodes.length := Db.node_lt (by rintro h; rw [h] at hl; cases hl)
    exact hb.leaf i l (by rw [hx.node hi]; exact hl)
  · have hi : i < a.nodes.length := Db.node_lt (by rintro h; rw [h] at hs; cases hs)
    exact hb.inner i l r (by rw [hx.node hi]; exact hs)

/-- Nothing is encoded yet. -/
theorem LCore.nil {db : Db} (hp : ∀ i, (db.node i).isGeneral = false) (h : ∀ i k v l, ¬ OutAt db i k v l) : LCore db [] := by
  refine ⟨hp, fun m i => LSound.blank fun k l hs => ?_, fun W b _ => by intro c hc; cases hc⟩
  rintro (⟨h1, -⟩ | ⟨s, -, h1, -⟩)
  · rw [h1] at hs; exact hs rfl
  · exact h i k _ l ⟨_, h1⟩

theorem LCore.reset {db : Db} {cls : ClauseSet} (h : LCore db cls) : LCore (db.resetEncoded .if_) cls := by
  have hr := resetEncoded_rel db .if_
  refine ⟨fun i => by rw [(hr.node i).isGeneral]; exact h.plain i, fun m i => LSound.blank fun k l hs => ?_, fun W b hb => h.sat W b ?_⟩
  · intro hl
    rcases hasLit_iff.1 hl with ⟨h1, -⟩ | ⟨s, -, h1, h2⟩
    · rw [h1] at hs; exact hs rfl
    · obtain ⟨d, h3, h4⟩ := (hr.node i).outData_bwd h1
      have := (removeSemantics_rel .if_ d).2.2.2.2.1 rfl
      rw [← h4] at this
      simp only [LitData.hasIf] at this
      rw [h2] at this; cases this
  · refine ⟨fun i k v l ho => hb.out i k v l ((reset_outAt db .if_).2 ho), fun i l hl => hb.leaf i l (hr.leaf.2 hl), fun i l r hs => hb.inner i l r ?_⟩
    rw [hr.shape]; exact hs

/-- Reserving variables. -/
theorem LCore.reserve {db db' : Db} {cls : ClauseSet} (h : LCore db cls) (hr : DbRef db db')
    (ha : ∀ i, Adds db db' i (fun _ => False) .if_) : LCore db' cls := by
  refine ⟨fun i => by rw [(hr.node i).isGeneral]; exact h.plain i, fun m i => ?_, fun W b hb => h.sat W b (hb.ref hr)⟩
  intro lc rc hs b hb wl wr h1 h2 h3 k l hl hk
  rw [hr.shape] at hs
  refine h.sound m i lc rc hs b hb wl wr (h1.ref hr) (h2.ref hr) h3 k l ?_ hk
  rcases hasLit_iff.1 hl with ⟨h4, -⟩ | ⟨s, -, h4, h5⟩
  · rw [hr.leaf.1 h4] at hs; cases hs
  · rcases (ha i).if_ k ⟨k + 1, _, h4, h5⟩ with ⟨v, d, h6, h7⟩ | ⟨h6, -⟩
    · obtain ⟨d', h8, h9⟩ := (hr.node i).outData_fwd h6
      rw [h4] at h8
      cases d with
      | none => cases h7
      | lit x s' =>
        obtain ⟨s'', e⟩ := h9.keep x s' rfl
        cases h8
        cases e
        cases s' with
        | none => cases h7
        | some t => exact hasLit_iff.2 (Or.inr ⟨t, h.plain i, h6, h7⟩)
    · exact h6.elim

theorem LCore.level {db : Db} {cls : ClauseSet} (h : LCore db cls) (hw : db.WF) {b : Asg} (hb : ClauseSet.sat b cls) {T : Lit → Bool}
    (hT : ∀ x, T x = true → x.holds b = true) : ∀ i, LevelOK db b i (value db T i) := by
  intro i
  induction i using Nat.strongRecOn with
  | _ i ih =>
    refine ⟨value_le_len hw T i (h.plain i), fun k l hk hl => ?_⟩
    have hl' := hl
    rcases hl with ⟨h1, -⟩ | ⟨s, -, h1, -⟩
    · rw [value_leaf hw h1] at hk
      apply hT
      by_contra hx
      rw [if_neg hx] at hk
      omega
    · cases hn : db.node i with
      | leaf => rw [hn] at h1; cases h1
      | dummy => rw [hn] at h1; cases h1
      | general => have := h.plain i; rw [hn] at this; cases this
      | unit lits dp nl lc rc =>
        have hs : (db.node i).shape = .inner lc rc := by rw [hn]; rfl
        obtain ⟨c1, c2⟩ := hw.children hs
        refine h.sound _ i lc rc hs b hb _ _ (ih _ c1) (ih _ c2) (Nat.le_refl _) k l hl' ?_
        rw [value_eq hw, hs] at hk
        exact hk

theorem LCore.soundIf {db : Db} {cls : ClauseSet} (h : LCore db cls) (hw : db.WF) : SoundIf db cls := by
  intro i k v l s hd hi b hb T hT hv
  have hv' : v ≤ value db T i := by
    rcases hv with hv | ⟨-, hv⟩
    · exact hv.le hw
    · exact hv
  have := outData_unit (h.plain i) hd
  subst this
  cases s with
  | none => cases hi
  | some s => exact (h.level hw hb hT i).2 k l hv' (hasLit_iff.2 (Or.inr ⟨s, h.plain i, hd, hi⟩))

/-- The part of the invariant that is not about the meaning of the clauses. -/
structure PreCore (db : Db) (n : Nat) (cls : ClauseSet) (ins : List Lit) (own : List Nat) : Prop where
  wf : db.WF
  aux : AuxOK db n
  leafIn : ∀ j l, db.node j = .leaf l → l ∈ ins
  outOwn : ∀ i k v l, OutAt db i k v l → l.var ∈ own
  ownLt : ∀ v ∈ own, v < n
  insLt : ∀ l ∈ ins, l.var < n
  disj : ∀ l ∈ ins, l.var ∉ own
  vars : VarsOK db cls

theorem Core.pre {db : Db} {n : Nat} {cls : ClauseSet} {ins : List Lit} {own : List Nat} (h : Core db n cls ins own) : PreCore db n cls ins own :=
  ⟨h.wf, h.aux, h.leafIn, h.outOwn, h.ownLt, h.insLt, h.disj, h.vars⟩

theorem PreCore.core {db : Db} {n : Nat} {cls : ClauseSet} {ins : List Lit} {own : List Nat} (h : PreCore db n cls ins own) (hl : LCore db cls)
    (hd : ¬ NoDummy db) : Core db n cls ins own :=
  ⟨h.wf, h.aux, h.leafIn, h.outOwn, h.ownLt, h.insLt, h.disj, hl.soundIf h.wf, fun hn => absurd hn hd,
    fun b hb => hl.sat _ b (hb.levels h.wf), h.vars⟩

theorem PreCore.step {st st' : St VM} {ins : List Lit} {own : List Nat}
    (h : PreCore st.db (ManageVars.nUsed st.vm) st.cls ins own) (hs : Step st st') :
    PreCore st'.db (ManageVars.nUsed st'.vm) st'.cls ins
      (own ++ List.range' (ManageVars.nUsed st.vm) (ManageVars.nUsed st'.vm - ManageVars.nUsed st.vm)) := by
  obtain ⟨new, e, c1, c2, c3, c4⟩ := hs.cls
  have hu := hs.used
  refine ⟨hs.ref.wf h.wf, hs.aux h.aux, fun j l hl => h.leafIn j l (hs.ref.leaf.1 hl), fun i k v l ho => ?_,
    fun v hv => ?_, fun l hl => Nat.lt_of_lt_of_le (h.insLt l hl) hu, fun l hl hm => ?_, ?_⟩
  · rw [List.mem_append, List.mem_range'_1]
    rcases hs.fresh i k v l ho with h' | h'
    · exact Or.inl (h.outOwn i k v l h')
    · right; omega
  · rw [List.mem_append, List.mem_range'_1] at hv
    rcases hv with hv | hv
    · exact Nat.lt_of_lt_of_le (h.ownLt v hv) hu
    · omega
  · rw [List.mem_append, List.mem_range'_1] at hm
    rcases hm with hm | hm
    · exact h.disj l hl hm
    · have := h.insLt l hl; omega
  · rw [e]
    intro c hc
    rcases List.mem_append.1 hc with hc | hc
    · exact VarsOK.ref (fun _ _ => keep_of_ref) hs.ref h.vars c hc
    · exact c4 c hc

end TotDb
end RustSat
