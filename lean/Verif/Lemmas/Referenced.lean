import Verif.Lemmas.Totalizer2
import Verif.Lemmas.Gte
import Verif.Lemmas.DpwWorld
import Verif.Spec.Referenced
/-
Lemmas about encodings that share a database.
-/
namespace RustSat
open TotDb Card

namespace TotDb

theorem HasLit.ext {dm : Prop} {L : List Lit} {db db' : Db} (h : ExtD dm L db db') {id idx : Nat} {sem : Semantics} {l : Lit}
    (hi : id < db.nodes.length) (hl : HasLit db id idx sem l) : HasLit db' id idx sem l := by
  unfold HasLit at hl ⊢
  rw [h.node hi]
  exact hl

theorem Gap.rel {R : LitData → LitData → Prop} {db db' : Db} (hr : DbRel R db db') (hw : db.WF) {c : NodeCon} {M : Nat} (h : Gap db c M) :
    Gap db' c M := by
  intro T b hb
  rw [hr.conVal hw] at hb
  obtain ⟨v, ⟨u, h3, h4⟩, h5⟩ := h T b hb
  exact ⟨v, ⟨u, (hr.att hw).2 h3, h4⟩, h5⟩

theorem weightedLitTree_gap {db : Db} (hw : db.WF) {lits : List (Lit × Nat)} (hne : lits ≠ []) (hpos : ∀ x ∈ lits, 0 < x.2) :
    ∃ c db', weightedLitTree db lits = some (some c, db') ∧ db'.WF ∧ Ext (lits.map (·.1)) db db' ∧
      (∀ M, (∀ x ∈ lits, x.2 ≤ M) → GapCon M db' c) ∧ ∀ T, conVal db' T c = wsumT T lits := by
  unfold weightedLitTree
  obtain ⟨hf, hs⟩ := segments_spec (fun x : Lit × Nat => x.2) lits
  obtain ⟨cons, db1, e, a1, a2, a3, a4, a5⟩ := segTrees_spec (segments (fun x : Lit × Nat => x.2) lits) db hw hs (by rw [hf]; exact hpos)
  rw [hf] at a2 a4 a5
  simp only [e]
  have hne' : cons ≠ [] := by
    intro h
    rw [h] at a3
    have : segments (fun x : Lit × Nat => x.2) lits = [] := List.length_eq_zero_iff.1 (by simpa using a3.symm)
    rw [this] at hf
    exact hne (by simpa using hf.symm)
  obtain ⟨c, db2, e2, b1, b2, b3, b4⟩ := mergeBalanced_spec mergeable_plain a1 hne' fun c hc => (a4 c hc).1
  rw [e2]
  refine ⟨c, db2, rfl, b1, a2.trans (b2.mono (by simp)), fun M hM => ?_, fun T => by rw [b4, a5]⟩
  obtain ⟨c', db2', e2', -, -, b3', -⟩ := mergeBalanced_spec (mergeable_gap M) a1 hne' fun c hc => by
    obtain ⟨p1, p2, x, hx, p3⟩ := a4 c hc
    exact ⟨p1, (gap_unit a1 p1 p2).mono (by rw [p3]; exact hM x hx)⟩
  rw [e2] at e2'
  cases e2'
  exact b3'

end TotDb

variable {VM : Type} [ManageVars VM]

/-! ### The invariant -/

namespace SharedWorld

/-- The invariant of trees that count literals. -/
structure CardOK (db : Db) (ins : List Lit) (id : Nat) (lits : List Lit) : Prop where
  lt : id < db.nodes.length
  unit : (db.node id).isGeneral = false
  val : ∀ T, value db T id = cnt T lits
  mem : ∀ l ∈ lits, l ∈ ins
  ne : lits ≠ []

/-- The invariant of trees that add up weights. -/
structure SumOK (db : Db) (ins : List Lit) (con : NodeCon) (lits : List (Lit × Nat)) : Prop where
  gap : ∀ M, (∀ x ∈ lits, x.2 ≤ M) → GapCon M db con
  val : ∀ T, conVal db T con = wsumT T lits
  mem : ∀ x ∈ lits, x.1 ∈ ins

theorem CardOK.rel {R : LitData → LitData → Prop} {db db' : Db} {ins lits : List Lit} {id : Nat} (hr : DbRel R db db') (hw : db.WF)
    (h : CardOK db ins id lits) : CardOK db' ins id lits :=
  ⟨by rw [hr.len]; exact h.lt, by rw [(hr.node id).isGeneral]; exact h.unit, fun T => by rw [hr.value hw]; exact h.val T, h.mem, h.ne⟩

theorem CardOK.ext {dm : Prop} {L : List Lit} {db db' : Db} {ins lits : List Lit} {id : Nat} (he : ExtD dm L db db') (hw : db.WF) (h : CardOK db ins id lits) :
    CardOK db' ins id lits :=
  ⟨Nat.lt_of_lt_of_le h.lt he.len, by rw [he.node h.lt]; exact h.unit, fun T => by rw [he.value hw T h.lt]; exact h.val T, h.mem, h.ne⟩

theorem SumOK.plain {db : Db} {ins : List Lit} {con : NodeCon} {lits : List (Lit × Nat)} (h : SumOK db ins con lits) : PlainCon db con :=
  (h.gap (lits.map (·.2)).sum fun x hx => by
    have : ∀ (l : List (Lit × Nat)), x ∈ l → x.2 ≤ (l.map (·.2)).sum := by
      intro l
      induction l with
      | nil => exact fun h => absurd h List.not_mem_nil
      | cons y l ih =>
        intro h
        rw [List.map_cons, List.sum_cons]
        obtain rfl | h := List.mem_cons.1 h
        · omega
        · have := ih h
          omega
    exact this lits hx).1

theorem SumOK.rel {R : LitData → LitData → Prop} {db db' : Db} {ins : List Lit} {con : NodeCon} {lits : List (Lit × Nat)} (hr : DbRel R db db')
    (hw : db.WF) (h : SumOK db ins con lits) : SumOK db' ins con lits :=
  ⟨fun M hM => ⟨hr.plain (h.gap M hM).1, (h.gap M hM).2.rel hr hw⟩, fun T => by rw [hr.conVal hw]; exact h.val T, h.mem⟩

theorem SumOK.ext {dm : Prop} {L : List Lit} {db db' : Db} {ins : List Lit} {con : NodeCon} {lits : List (Lit × Nat)} (he : ExtD dm L db db') (hw : db.WF)
    (hw' : db'.WF) (h : SumOK db ins con lits) : SumOK db' ins con lits :=
  ⟨fun M hM => ⟨he.plain (h.gap M hM).1, (h.gap M hM).2.ext hw hw' he (h.gap M hM).1.id⟩,
    fun T => by rw [he.conVal hw T h.plain.id]; exact h.val T, h.mem⟩

/-- The values of the root of a weighted encoding that have to be encoded for a bound. -/
def WEnc (db : Db) (con : NodeCon) (M b : Nat) : Prop :=
  ∀ v ∈ (db.node con.id).valsFrom 1, b < con.map v → con.map v ≤ b + M → ∃ l, HasVal db con.id v l

/-- The invariant of watchdogs. -/
structure DogOK (db : Db) (ins : List Lit) (s : Dpw.Structure) (lits : List (Lit × Nat)) : Prop where
  lt : s.root < db.nodes.length
  unit : (db.node s.root).isGeneral = false
  val : ∀ T, value db T s.root = (wsumT T (divided s.precDiv lits) + Dpw.tareVal T s.tares) / 2 ^ s.tares.length
  mem : ∀ x ∈ lits, x.1 ∈ ins
  tares : ∃ us : List Nat, us.Nodup ∧ s.tares = us.map Lit.pos

theorem DogOK.rel {R : LitData → LitData → Prop} {db db' : Db} {ins : List Lit} {s : Dpw.Structure} {lits : List (Lit × Nat)} (hr : DbRel R db db')
    (hw : db.WF) (h : DogOK db ins s lits) : DogOK db' ins s lits :=
  ⟨by rw [hr.len]; exact h.lt, by rw [(hr.node s.root).isGeneral]; exact h.unit, fun T => by rw [hr.value hw]; exact h.val T, h.mem, h.tares⟩

theorem DogOK.ext {dm : Prop} {L : List Lit} {db db' : Db} {ins : List Lit} {s : Dpw.Structure} {lits : List (Lit × Nat)} (he : ExtD dm L db db')
    (hw : db.WF) (h : DogOK db ins s lits) : DogOK db' ins s lits :=
  ⟨Nat.lt_of_lt_of_le h.lt he.len, by rw [he.node h.lt]; exact h.unit, fun T => by rw [he.value hw T h.lt]; exact h.val T, h.mem, h.tares⟩

/-- The tares of all watchdogs. -/
def tares (w : SharedWorld VM) : List Lit := w.dogs.flatMap (·.1.tares)

/-- The variables of outputs. -/
def out (w : SharedWorld VM) : List Nat := w.own.filter fun v => decide (v ∉ w.tares.map Lit.var)

omit [ManageVars VM] in
theorem mem_out {w : SharedWorld VM} {v : Nat} : v ∈ w.out ↔ v ∈ w.own ∧ v ∉ w.tares.map Lit.var := by
  unfold out
  rw [List.mem_filter, decide_eq_true_eq]

omit [ManageVars VM] in
theorem mem_tares {w : SharedWorld VM} {t : Lit} : t ∈ w.tares ↔ ∃ x ∈ w.dogs, t ∈ x.1.tares := List.mem_flatMap

omit [ManageVars VM] in
theorem mem_tareVars {w : SharedWorld VM} {v : Nat} : v ∈ w.tareVars ↔ ∃ t ∈ w.tares, t.var = v := by
  simp only [tareVars, tares, List.mem_flatMap, List.mem_map]
  constructor
  · rintro ⟨x, hx, t, ht, e⟩; exact ⟨t, ⟨x, hx, ht⟩, e⟩
  · rintro ⟨t, ⟨x, hx, ht⟩, e⟩; exact ⟨x, hx, t, ht, e⟩

/-- The invariant of a shared database. -/
structure Inv (w : SharedWorld VM) : Prop where
  core : Core w.db (ManageVars.nUsed w.vm) w.cls (w.ins ++ w.tares) w.out
  real : (∀ x ∈ w.dogs, x.1.precDiv ≤ 1) → AllReal w.db
  cards : ∀ x ∈ w.cards, CardOK w.db w.ins x.1 x.2
  sums : ∀ x ∈ w.sums, SumOK w.db w.ins x.1 x.2
  dogs : ∀ x ∈ w.dogs, DogOK w.db w.ins x.1 x.2
  sep : ∀ x ∈ w.dogs, ∀ y ∈ w.dogs, x.1 ≠ y.1 → ∀ t ∈ x.1.tares, t.var ∉ y.1.tares.map Lit.var
  tareOwn : ∀ t ∈ w.tares, t.var ∈ w.own
  fresh : ∀ l ∈ w.ins, l.var ∉ w.tares.map Lit.var

theorem _root_.RustSat.TotDb.Core.congr {db : Db} {n : Nat} {cls : ClauseSet} {ins ins' : List Lit} {own own' : List Nat} (h : Core db n cls ins own)
    (hi : ∀ l, l ∈ ins' ↔ l ∈ ins) (ho : ∀ v, v ∈ own' ↔ v ∈ own) : Core db n cls ins' own' :=
  { h with
    leafIn := fun j l hj => (hi l).2 (h.leafIn j l hj)
    insLt := fun l hl => h.insLt l ((hi l).1 hl)
    outOwn := fun i k v l hl => (ho _).2 (h.outOwn i k v l hl)
    ownLt := fun v hv => h.ownLt v ((ho v).1 hv)
    disj := fun l hl hv => h.disj l ((hi l).1 hl) ((ho _).1 hv) }

theorem _root_.RustSat.TotDb.resetVars_node (db : Db) (i : Nat) :
    db.resetVars.node i = (db.node i).resetVars := by
  unfold Db.resetVars Db.node
  simp only [List.getD_eq_getElem?_getD, List.getElem?_map]
  cases db.nodes[i]? with
  | none => rfl
  | some n => cases n <;> rfl

theorem _root_.RustSat.TotDb.resetVars_rel (db : Db) : DbRel (fun _ d => d = .none) db db.resetVars := by
  refine ⟨by simp [Db.resetVars], rfl, rfl, fun i => ?_⟩
  rw [resetVars_node]
  cases db.node i with
  | leaf => rfl
  | dummy => trivial
  | unit lits d nl l r =>
    refine ⟨rfl, rfl, rfl, rfl, by simp, fun i x y hx hy => ?_⟩
    rw [List.getElem?_map, hx] at hy
    cases hy
    rfl
  | general lits d nl m l r =>
    refine ⟨rfl, rfl, rfl, rfl, rfl, by simp [Function.comp_def], fun i x y hx hy => ?_⟩
    rw [List.getElem?_map, hx] at hy
    cases hy
    rfl

theorem _root_.RustSat.TotDb.resetVars_out (db : Db) (i k v : Nat) (d : LitData) (h : (db.resetVars.node i).outData k = some (v, d)) : d = .none := by
  obtain ⟨_, _, e⟩ := ((resetVars_rel db).node i).outData_bwd h
  exact e

theorem _root_.RustSat.TotDb.Core.resetVars {db : Db} {n m : Nat} {cls : ClauseSet} {ins : List Lit} {own : List Nat} (h : Core db n cls ins own)
    (hm : ∀ l ∈ ins, l.var < m) : Core db.resetVars m [] ins [] := by
  have hr := resetVars_rel db
  have no : ∀ {i k v l}, ¬ OutAt db.resetVars i k v l := by
    rintro i k v l ⟨s, hs⟩
    cases resetVars_out db i k v _ hs
  exact ⟨hr.wf h.wf, ⟨fun i l hl => hm l (h.leafIn i l (hr.leaf.1 hl)), fun i k v l ho => (no ho).elim, fun i k v l j l' ho => (no ho).elim,
      fun i k v i' k' v' l ho => (no ho).elim⟩, fun j l hl => h.leafIn j l (hr.leaf.1 hl), fun i k v l ho => (no ho).elim, fun v hv => (by cases hv),
    hm, fun l _ hv => (by cases hv), fun i k v l s hs => (no ⟨s, hs⟩).elim, fun _ i k v l s hs => (no ⟨s, hs⟩).elim, fun b _ c hc => (by cases hc),
    fun c hc => (by cases hc)⟩

theorem Inv.resetVars {w : SharedWorld VM} (h : w.Inv) {vm : VM} (ha : w.allowed (.resetVars vm)) :
    Inv { w with db := w.db.resetVars, vm := vm, cls := [], own := w.tareVars, ub := nothing, lb := nothing, wub := nothingW, dub := fun _ _ => False } := by
  have hr := resetVars_rel w.db
  have hw := h.core.wf
  obtain ⟨h1, h2⟩ := ha
  refine ⟨(h.core.resetVars (m := ManageVars.nUsed vm) fun l hl => ?_).congr (fun _ => Iff.rfl) fun v => ?_, fun hd => (h.real hd).rel hr,
    fun x hx => (h.cards x hx).rel hr hw, fun x hx => (h.sums x hx).rel hr hw, fun x hx => (h.dogs x hx).rel hr hw, h.sep,
    fun t ht => mem_tareVars.2 ⟨t, ht, rfl⟩, h.fresh⟩
  · rcases List.mem_append.1 hl with hl | hl
    · exact h1 l hl
    · exact h2 _ (mem_tareVars.2 ⟨l, hl, rfl⟩)
  · refine ⟨fun hv => ?_, fun hv => by cases hv⟩
    obtain ⟨h3, h4⟩ := mem_out.1 hv
    obtain ⟨t, ht, e⟩ := mem_tareVars.1 h3
    exact (h4 (List.mem_map.2 ⟨t, ht, e⟩)).elim

theorem Inv.ownLt {w : SharedWorld VM} (h : w.Inv) : ∀ v ∈ w.own, v < ManageVars.nUsed w.vm := by
  intro v hv
  by_cases ht : v ∈ w.tares.map Lit.var
  · obtain ⟨t, ht', rfl⟩ := List.mem_map.1 ht
    exact h.core.insLt t (List.mem_append_right _ ht')
  · exact h.core.ownLt v (mem_out.2 ⟨hv, ht⟩)

theorem Inv.insOwn {w : SharedWorld VM} (h : w.Inv) : ∀ l ∈ w.ins, l.var ∉ w.own :=
  fun l hl ho => h.core.disj l (List.mem_append_left _ hl) (mem_out.2 ⟨ho, h.fresh l hl⟩)

/-- Literals of outputs are encoded. -/
def Av (sem : Semantics) (db : Db) (p : Nat → Nat → Prop) : Prop :=
  ∀ id b, p id b → id < db.nodes.length ∧ (b < (db.node id).len → ∃ l, HasLit db id b sem l)

/-- Literals of values are encoded. -/
def WAv (db : Db) (p : NodeCon → Nat → Nat → Prop) : Prop := ∀ con M b, p con M b → con.id < db.nodes.length ∧ WEnc db con M b

/-- All upper bounds that were covered can be enforced. -/
def AvailU (w : SharedWorld VM) : Prop := Av .if_ w.db w.ub ∧ WAv w.db w.wub

/-- The outputs of watchdogs for all upper bounds that were covered. -/
def AvailD (w : SharedWorld VM) : Prop := ∀ s b, w.dub s b → s.root < w.db.nodes.length ∧ (w.db.node s.root).isGeneral = false ∧
  ((w.db.node s.root).maxVal ≤ b / 2 ^ s.tares.length ∨ Dpw.Good w.db w.cls s.root (b / 2 ^ s.tares.length))

/-- All lower bounds that were covered can be enforced. -/
def AvailL (w : SharedWorld VM) : Prop := Av .onlyIf w.db fun id b => w.lb id (b + 1)

theorem CardOK.len {db : Db} {ins lits : List Lit} {id : Nat} (hw : db.WF) (h : CardOK db ins id lits) : (db.node id).len = lits.length := by
  rw [← value_all hw id h.unit, h.val, cnt_all]

theorem SumOK.weightSum {db : Db} {ins : List Lit} {con : NodeCon} {lits : List (Lit × Nat)} (hw : db.WF) (h : SumOK db ins con lits) :
    RefGte.weightSum db con = wsumT (fun _ => true) lits := by
  rw [RefGte.weightSum, ← value_all_max hw, ← h.val]
  rfl

/-- The database changed by a step of the database. -/
theorem Inv.step {w : SharedWorld VM} (h : w.Inv) {st : St VM} {db0 : Db} (h0 : DbRel LitKeep w.db db0)
    (hc0 : Core db0 (ManageVars.nUsed w.vm) w.cls (w.ins ++ w.tares) w.out) (hs : Step ⟨db0, w.vm, w.cls⟩ st) (ub lb : Nat → Nat → Prop)
    (wub : NodeCon → Nat → Nat → Prop) (dub : Dpw.Structure → Nat → Prop) :
    Inv { w with db := st.db, vm := st.vm, cls := st.cls, own := w.own ++ CardWorld.handedOut w.vm st.vm, ub := ub, lb := lb, wub := wub, dub := dub } := by
  have hw := h.core.wf
  have hw0 := hc0.wf
  refine ⟨(Core.step (st := ⟨db0, w.vm, w.cls⟩) hc0 hs).congr (fun _ => Iff.rfl) fun v => ?_, fun hd => ((h.real hd).rel h0).rel hs.ref,
    fun x hx => ((h.cards x hx).rel h0 hw).rel hs.ref hw0, fun x hx => ((h.sums x hx).rel h0 hw).rel hs.ref hw0,
    fun x hx => ((h.dogs x hx).rel h0 hw).rel hs.ref hw0, h.sep, fun t ht => List.mem_append_left _ (h.tareOwn t ht), h.fresh⟩
  rw [mem_out, List.mem_append, List.mem_append, mem_out]
  show (v ∈ w.own ∨ v ∈ CardWorld.handedOut w.vm st.vm) ∧ v ∉ w.tares.map Lit.var ↔ (v ∈ w.own ∧ v ∉ w.tares.map Lit.var) ∨ v ∈ CardWorld.handedOut w.vm st.vm
  constructor
  · rintro ⟨h1 | h1, h2⟩
    · exact Or.inl ⟨h1, h2⟩
    · exact Or.inr h1
  · rintro (⟨h1, h2⟩ | h1)
    · exact ⟨Or.inl h1, h2⟩
    · refine ⟨Or.inr h1, fun h2 => ?_⟩
      obtain ⟨t, ht, rfl⟩ := List.mem_map.1 h2
      have := h.core.insLt t (List.mem_append_right _ ht)
      unfold CardWorld.handedOut at h1
      rw [List.mem_range'_1] at h1
      omega

theorem AvailD.step {w : SharedWorld VM} (h : w.AvailD) {st : St VM} {db0 : Db} (h0 : DbRel LitKeep w.db db0) (hw : w.db.WF) (hw0 : db0.WF)
    (hs : Step ⟨db0, w.vm, w.cls⟩ st) : ∀ s b, w.dub s b → s.root < st.db.nodes.length ∧ (st.db.node s.root).isGeneral = false ∧
      ((st.db.node s.root).maxVal ≤ b / 2 ^ s.tares.length ∨ Dpw.Good st.db st.cls s.root (b / 2 ^ s.tares.length)) := by
  intro s b hb
  obtain ⟨h1, h2, h3⟩ := h s b hb
  have hr : DbRef db0 st.db := hs.ref
  refine ⟨by rw [hr.len, h0.len]; exact h1, by rw [(hr.node _).isGeneral, (h0.node _).isGeneral]; exact h2, ?_⟩
  rcases h3 with h3 | h3
  · left
    rw [← value_all_max (hr.wf hw0), hr.value hw0, h0.value hw, value_all_max hw]
    exact h3
  · right
    obtain ⟨new, e, -⟩ := hs.cls
    have h4 := h3.rel (new := []) (fun _ _ h => h) h0 hw
    rw [List.append_nil] at h4
    rw [e]
    exact h4.rel (fun _ _ => keep_of_ref) hr hw0

theorem AvailD.ext {dm : Prop} {L : List Lit} {db db' : Db} {cls : ClauseSet} (he : ExtD dm L db db') (hw : db.WF) {s : Dpw.Structure} {k : Nat}
    (h : s.root < db.nodes.length ∧ (db.node s.root).isGeneral = false ∧ ((db.node s.root).maxVal ≤ k ∨ Dpw.Good db cls s.root k)) :
    s.root < db'.nodes.length ∧ (db'.node s.root).isGeneral = false ∧ ((db'.node s.root).maxVal ≤ k ∨ Dpw.Good db' cls s.root k) := by
  obtain ⟨h1, h2, h3⟩ := h
  refine ⟨Nat.lt_of_lt_of_le h1 he.len, by rw [he.node h1]; exact h2, ?_⟩
  rw [he.node h1]
  refine h3.imp id ?_
  rintro ⟨l, h4, h5⟩
  refine ⟨l, ?_, fun b hb hv => h5 b hb (by rw [he.value hw _ h1] at hv; exact hv)⟩
  rcases h4 with ⟨h4, h6⟩ | h4
  · exact Or.inl ⟨by rw [he.node h1]; exact h4, h6⟩
  · exact Or.inr (he.outAt.2 h4)

theorem keepReset (db : Db) (sem : Semantics) : DbRel LitKeep db (db.resetEncoded sem) :=
  (resetEncoded_rel db sem).mono fun x y h l s e => by
    obtain ⟨s', e'⟩ := (removeSemantics_rel sem x).1 l s e
    exact ⟨s', by rw [h]; exact e'⟩

theorem keepRefl (db : Db) : DbRel LitKeep db db := (DbRef.refl db).mono fun _ _ => keep_of_ref

/-! ### The calls -/

/-- What a call on an encoding does: no panic, a step of the database after possibly forgetting what is encoded. -/
structure Call (w : SharedWorld VM) (db0 : Db) (r : Option (St VM)) (st : St VM) : Prop where
  eq : r = some st
  keep : DbRel LitKeep w.db db0
  core : Core db0 (ManageVars.nUsed w.vm) w.cls (w.ins ++ w.tares) w.out
  step : Step ⟨db0, w.vm, w.cls⟩ st

theorem mem_ub {n : Nat} {r : URange} {b : Nat} :
    b ∈ List.range' (prepareUbRange n r).1 ((prepareUbRange n r).2 - (prepareUbRange n r).1) ↔ r.contains b ∧ b < n := by
  have hle : (prepareUbRange n r).2 ≤ n := by
    unfold prepareUbRange
    cases r.hi <;> simp
  have := prepareUb_mem (n := n) (r := r) (b := b)
  rwa [Nat.min_eq_left hle] at this

theorem mem_lb {n : Nat} {r : URange} {i : Nat} :
    i ∈ (List.range' (prepareLbRange n r).1 ((prepareLbRange n r).2 - (prepareLbRange n r).1)).map (· - 1) ↔ r.contains (i + 1) ∧ i < n := by
  have hle : (prepareLbRange n r).2 ≤ n + 1 := by
    unfold prepareLbRange
    cases r.hi <;> simp
  have := prepareLb_mem (n := n) (r := r) (i := i)
  rwa [Nat.min_eq_left hle] at this

variable [LawfulVM VM]

/-- Defining outputs of the root of a tree that counts literals. -/
theorem define_call {w : SharedWorld VM} {db0 : Db} (h0 : DbRel LitKeep w.db db0)
    (hc0 : Core db0 (ManageVars.nUsed w.vm) w.cls (w.ins ++ w.tares) w.out) {id : Nat} {lits : List Lit} (hcard : CardOK db0 w.ins id lits) (sem : Semantics)
    {idxs : List Nat} (hi : ∀ i ∈ idxs, i < lits.length) :
    ∃ st, Call w db0 (defineAll (⟨db0, w.vm, w.cls⟩ : St VM) id sem idxs) st ∧ ∀ i ∈ idxs, ∃ l, HasLit st.db id i sem l := by
  obtain ⟨st, e, hs, hl, -⟩ := defineAll_spec id sem idxs (⟨db0, w.vm, w.cls⟩ : St VM) hc0.wf hcard.unit fun i hi' => by
    rw [hcard.len hc0.wf]; exact hi i hi'
  exact ⟨st, ⟨e, h0, hc0, hs⟩, hl⟩

/-- Defining values of the root of a tree that adds up weights. -/
theorem weighted_call {w : SharedWorld VM} {db0 : Db} (h0 : DbRel LitKeep w.db db0)
    (hc0 : Core db0 (ManageVars.nUsed w.vm) w.cls (w.ins ++ w.tares) w.out) {con : NodeCon} {lits : List (Lit × Nat)} (hsum : SumOK db0 w.ins con lits)
    (M : Nat) (r : URange) :
    ∃ st, Call w db0 (RefGte.encodeUbChange con M r (⟨db0, w.vm, w.cls⟩ : St VM)) st ∧
      ∀ b, r.contains b → WEnc st.db con M b := by
  have hw := hc0.wf
  have hiff := fun b => Gte.Inv.prepareUb_iff (ws := RefGte.weightSum db0 con) (r := r) (b := b)
  rw [RefGte.encodeUbChange]
  simp only
  generalize Pb.prepareUbRange (RefGte.weightSum db0 con) r = range at hiff ⊢
  have hbig : ∀ v ∈ (db0.node con.id).valsFrom 1, con.map v ≤ RefGte.weightSum db0 con := fun v hv => con.map_mono (vals_le_max hw hv)
  by_cases hemp : range.2 ≤ range.1
  · rw [if_pos hemp]
    refine ⟨_, ⟨rfl, h0, hc0, Step.refl _⟩, fun b hb v hv h1 h2 => ?_⟩
    have := hbig v hv
    have := (hiff b).2 ⟨hb, by omega⟩
    omega
  · rw [if_neg hemp]
    obtain ⟨st, e, hs, hl, -, -⟩ := defineVals_spec con.id
      ((db0.node con.id).valsRange (con.revMapRoundUp (range.1 + 1)) (con.revMap (range.2 + M) + 1)) (⟨db0, w.vm, w.cls⟩ : St VM) hw
      fun v hv => ((Gte.mem_rootVals hsum.plain).1 hv).1
    refine ⟨st, ⟨e, h0, hc0, hs⟩, fun b hb v hv h1 h2 => ?_⟩
    rw [((hs.ref : DbRef db0 st.db).node con.id).valsFrom] at hv
    have := hbig v hv
    have h3 := (hiff b).2 ⟨hb, by omega⟩
    exact hl v ((Gte.mem_rootVals hsum.plain).2 ⟨hv, by omega, by omega⟩)

/-- Reserving variables. -/
theorem reserve_call {w : SharedWorld VM} (h : w.Inv) {con : NodeCon} (hc : (w.db.node con.id).isGeneral = true ∨ con.offset ≤ (w.db.node con.id).len) :
    ∃ st, Call w w.db (reserveVars (con.id + 1) w.st con) st := by
  obtain ⟨st, e, hs, -⟩ := reserveVars_spec (con.id + 1) w.st con h.core.wf (Nat.lt_succ_self _) hc
  exact ⟨st, e, keepRefl _, h.core, hs⟩

theorem WEnc.ref {a b : Db} (h : DbRef a b) {con : NodeCon} {M k : Nat} (he : WEnc a con M k) : WEnc b con M k := by
  intro v hv h1 h2
  rw [(h.node con.id).valsFrom] at hv
  obtain ⟨l, hl⟩ := he v hv h1 h2
  exact ⟨l, hl.ref h⟩

theorem WEnc.ext {dm : Prop} {L : List Lit} {a b : Db} (h : ExtD dm L a b) {con : NodeCon} (hi : con.id < a.nodes.length) {M k : Nat} (he : WEnc a con M k) :
    WEnc b con M k := by
  intro v hv h1 h2
  rw [h.node hi] at hv
  obtain ⟨l, hl⟩ := he v hv h1 h2
  exact ⟨l, hl.ext h⟩

theorem Av.ref {a b : Db} (h : DbRef a b) {sem : Semantics} {p : Nat → Nat → Prop} (ha : Av sem a p) : Av sem b p := by
  intro id k hk
  obtain ⟨h1, h2⟩ := ha id k hk
  refine ⟨by rw [h.len]; exact h1, fun h3 => ?_⟩
  rw [(h.node id).len] at h3
  obtain ⟨l, hl⟩ := h2 h3
  exact ⟨l, hl.ref h⟩

theorem Av.ext {dm : Prop} {L : List Lit} {a b : Db} (h : ExtD dm L a b) {sem : Semantics} {p : Nat → Nat → Prop} (ha : Av sem a p) : Av sem b p := by
  intro id k hk
  obtain ⟨h1, h2⟩ := ha id k hk
  refine ⟨Nat.lt_of_lt_of_le h1 h.len, fun h3 => ?_⟩
  rw [h.node h1] at h3
  obtain ⟨l, hl⟩ := h2 h3
  exact ⟨l, hl.ext h h1⟩

theorem Av.reset {db : Db} {p : Nat → Nat → Prop} (ha : Av .onlyIf db p) : Av .onlyIf (db.resetEncoded .if_) p := by
  intro id k hk
  obtain ⟨h1, h2⟩ := ha id k hk
  refine ⟨by rw [(resetEncoded_rel db .if_).len]; exact h1, fun h3 => ?_⟩
  rw [((resetEncoded_rel db .if_).node id).len] at h3
  obtain ⟨l, hl⟩ := h2 h3
  exact ⟨l, hl.reset (Or.inr ⟨rfl, rfl⟩)⟩

theorem Av.or {db : Db} {sem : Semantics} {p q : Nat → Nat → Prop} (h1 : Av sem db p) (h2 : Av sem db q) : Av sem db fun id b => p id b ∨ q id b :=
  fun id b h => h.elim (h1 id b) (h2 id b)

theorem WAv.ref {a b : Db} (h : DbRef a b) {p : NodeCon → Nat → Nat → Prop} (ha : WAv a p) : WAv b p := by
  intro con M k hk
  obtain ⟨h1, h2⟩ := ha con M k hk
  exact ⟨by rw [h.len]; exact h1, h2.ref h⟩

theorem WAv.ext {dm : Prop} {L : List Lit} {a b : Db} (h : ExtD dm L a b) {p : NodeCon → Nat → Nat → Prop} (ha : WAv a p) : WAv b p := by
  intro con M k hk
  obtain ⟨h1, h2⟩ := ha con M k hk
  exact ⟨Nat.lt_of_lt_of_le h1 h.len, h2.ext h h1⟩

theorem WAv.or {db : Db} {p q : NodeCon → Nat → Nat → Prop} (h1 : WAv db p) (h2 : WAv db q) : WAv db fun c M b => p c M b ∨ q c M b :=
  fun c M b h => h.elim (h1 c M b) (h2 c M b)

/-- What an operation preserves. -/
structure Next (w w' : SharedWorld VM) (op : SharedOp VM) : Prop where
  inv : w'.Inv
  availU : w.AvailU → (∀ root r, op ≠ .totLb root r) → w'.AvailU
  availL : w.AvailL → w'.AvailL
  availD : w.AvailD → w'.AvailD

/-- The upper bounds of a range are encoded. -/
theorem tot_ub_call {w : SharedWorld VM} {db0 : Db} (h0 : DbRel LitKeep w.db db0) (hc0 : Core db0 (ManageVars.nUsed w.vm) w.cls (w.ins ++ w.tares) w.out)
    {id : Nat} {lits : List Lit} (hcard : CardOK db0 w.ins id lits) (r : URange) :
    ∃ st, Call w db0 (RefTot.encodeUbChange id r (⟨db0, w.vm, w.cls⟩ : St VM)) st ∧ Av .if_ st.db fun i b => i = id ∧ r.contains b := by
  have hn : RefTot.nLits db0 id = lits.length := hcard.len hc0.wf
  rw [RefTot.encodeUbChange]
  simp only
  rw [hn]
  obtain ⟨st, e, h⟩ := define_call h0 hc0 hcard .if_ (idxs := List.range' (prepareUbRange lits.length r).1
    ((prepareUbRange lits.length r).2 - (prepareUbRange lits.length r).1)) fun i hi => (mem_ub.1 hi).2
  refine ⟨st, e, ?_⟩
  rintro i b ⟨rfl, hb⟩
  have hr : DbRef db0 st.db := e.step.ref
  refine ⟨by rw [hr.len]; exact hcard.lt, fun h1 => h b (mem_ub.2 ⟨hb, ?_⟩)⟩
  rw [(hr.node i).len, hcard.len hc0.wf] at h1
  exact h1

/-- The lower bounds of a range are encoded. -/
theorem tot_lb_call {w : SharedWorld VM} {db0 : Db} (h0 : DbRel LitKeep w.db db0) (hc0 : Core db0 (ManageVars.nUsed w.vm) w.cls (w.ins ++ w.tares) w.out)
    {id : Nat} {lits : List Lit} (hcard : CardOK db0 w.ins id lits) (r : URange) :
    ∃ st, Call w db0 (RefTot.encodeLbChange id r (⟨db0, w.vm, w.cls⟩ : St VM)) st ∧ Av .onlyIf st.db fun i b => i = id ∧ r.contains (b + 1) := by
  have hn : RefTot.nLits db0 id = lits.length := hcard.len hc0.wf
  rw [RefTot.encodeLbChange]
  simp only
  rw [hn]
  obtain ⟨st, e, h⟩ := define_call h0 hc0 hcard .onlyIf (idxs := (List.range' (prepareLbRange lits.length r).1
    ((prepareLbRange lits.length r).2 - (prepareLbRange lits.length r).1)).map (· - 1)) fun i hi => (mem_lb.1 hi).2
  refine ⟨st, e, ?_⟩
  rintro i b ⟨rfl, hb⟩
  have hr : DbRef db0 st.db := e.step.ref
  refine ⟨by rw [hr.len]; exact hcard.lt, fun h1 => h b (mem_lb.2 ⟨hb, ?_⟩)⟩
  rw [(hr.node i).len, hcard.len hc0.wf] at h1
  exact h1

omit [LawfulVM VM] in
/-- New nodes keep the invariant. -/
theorem Inv.grow {w : SharedWorld VM} (h : w.Inv) {L : List Lit} {db' : Db} (hL : ∀ l ∈ L, l.var < ManageVars.nUsed w.vm ∧ l.var ∉ w.own)
    {M : List Lit} (hM : ∀ l ∈ M, l ∈ w.ins ++ L) (he : Ext M w.db db') (hw : db'.WF) (cards : List (Nat × List Lit)) (sums : List (NodeCon × List (Lit × Nat)))
    (hc : ∀ x ∈ cards, CardOK db' (w.ins ++ L) x.1 x.2) (hs : ∀ x ∈ sums, SumOK db' (w.ins ++ L) x.1 x.2) :
    Inv { w with db := db', ins := w.ins ++ L, cards := w.cards ++ cards, sums := w.sums ++ sums } := by
  refine ⟨?_, fun hd => ExtD.allReal he (h.real hd), fun x hx => ?_, fun x hx => ?_, fun x hx => ?_, h.sep, h.tareOwn, fun l hl => ?_⟩
  · refine ((h.core.add L fun l hl => ⟨(hL l hl).1, fun ho => (hL l hl).2 (mem_out.1 ho).1⟩).ext he hw fun l hl => ?_).congr (fun l => ?_) (fun _ => Iff.rfl)
    · have := hM l hl
      simp only [List.mem_append] at this ⊢
      tauto
    · show l ∈ (w.ins ++ L) ++ w.tares ↔ l ∈ (w.ins ++ w.tares) ++ L
      simp only [List.mem_append]
      tauto
  · rcases List.mem_append.1 hx with hx | hx
    · have := (h.cards x hx).ext he h.core.wf
      exact ⟨this.lt, this.unit, this.val, fun l hl => List.mem_append_left _ (this.mem l hl), this.ne⟩
    · exact hc x hx
  · rcases List.mem_append.1 hx with hx | hx
    · have := (h.sums x hx).ext he h.core.wf hw
      exact ⟨this.gap, this.val, fun l hl => List.mem_append_left _ (this.mem l hl)⟩
    · exact hs x hx
  · have := (h.dogs x hx).ext he h.core.wf
    exact ⟨this.lt, this.unit, this.val, fun l hl => List.mem_append_left _ (this.mem l hl), this.tares⟩
  · rcases List.mem_append.1 hl with hl | hl
    · exact h.fresh l hl
    · intro ht
      obtain ⟨t, ht, e⟩ := List.mem_map.1 ht
      exact (hL l hl).2 (e ▸ h.tareOwn t ht)

theorem conWeightQueue_spec {db : Db} (hw : db.WF) : ∀ (trees : List (Nat × Nat)) (q : WeightQ), Dpw.QOK db q →
    (∀ t ∈ trees, 0 < t.2 ∧ Dpw.PosCon db (NodeCon.full t.1)) →
    let r := RefDpw.conWeightQueue (trees.map fun x => NodeCon.weighted x.1 x.2) q
    Dpw.QOK db r ∧ (∀ f T, Dpw.qsum f db T r = Dpw.qsum f db T q + (trees.map fun t => f t.2 * value db T t.1).sum) ∧
      (∀ t ∈ trees, ∃ e ∈ r, e.1 = t.2) ∧ ∀ e ∈ q, ∃ e' ∈ r, e'.1 = e.1
  | [], q, hq, _ => ⟨hq, fun f T => by simp [RefDpw.conWeightQueue], by simp, fun e he => ⟨e, he, rfl⟩⟩
  | t :: trees, q, hq, h => by
    have ht := h t List.mem_cons_self
    have hq' := Dpw.push_ok hq ht.1 ht.2
    obtain ⟨h1, h2, h3, h4⟩ := conWeightQueue_spec hw trees _ hq' fun t ht => h t (List.mem_cons_of_mem _ ht)
    have hh := Dpw.push_has q t.2 (NodeCon.full t.1)
    refine ⟨h1, fun f T => ?_, fun x hx => ?_, fun e he => ?_⟩
    · have := h2 f T
      rw [Dpw.push_sum, conVal_full, Nat.add_assoc, ← List.sum_cons] at this
      exact this
    · rcases List.mem_cons.1 hx with rfl | hx
      · obtain ⟨e, he, e1⟩ := hh.1
        obtain ⟨e', he', e2⟩ := h4 e he
        exact ⟨e', he', e2.trans e1⟩
      · exact h3 x hx
    · obtain ⟨e1, he1, e2⟩ := hh.2 e he
      obtain ⟨e', he', e3⟩ := h4 e1 he1
      exact ⟨e', he', e3.trans e2⟩

/-- A new watchdog keeps the invariant. -/
theorem Inv.dog {w : SharedWorld VM} (h : w.Inv) {lits : List (Lit × Nat)} {d : Nat} (hd : d ≤ 1 ∨ isPow2 d = true)
    (hL : ∀ x ∈ lits, x.1.var < ManageVars.nUsed w.vm ∧ x.1.var ∉ w.own) {q : WeightQ} {db1 : Db} (he : Ext (lits.map (·.1)) w.db db1) (hw1 : db1.WF)
    (hq : Dpw.QOK db1 q) (hmax : ∃ e ∈ q, d ≤ e.1) (hsum : ∀ f T, Dpw.qsum f db1 T q = wsumT T (lits.map fun x => (x.1, f x.2))) :
    ∃ w', w.built ((Dpw.buildStructure true q d db1 w.vm).map fun (s, _, db, vm) => (s, (⟨db, vm, w.cls⟩ : St VM))) lits = some w' ∧
      w'.Inv ∧ (∃ L dm, ExtD dm L w.db w'.db) ∧ w'.ub = w.ub ∧ w'.lb = w.lb ∧ w'.wub = w.wub ∧ w'.dub = w.dub ∧ w'.cls = w.cls := by
  obtain ⟨s, q', db', vm', e1, w1, x1, o1, l1, p1, r1, g1, t1, n1, m1, v1, -⟩ :=
    Dpw.buildStructure_spec (g := False) true hw1 hq hd hmax w.vm (B := []) (Dpw.SepD.nil fun h => h.elim) (by simp)
  simp only [if_true, Nat.add_sub_cancel] at m1 v1
  rw [e1]
  have hdiv := Dpw.divided_eq hd lits
  have hle : ManageVars.nUsed w.vm ≤ ManageVars.nUsed vm' := by omega
  have htv : ∀ v, v ∈ s.tares.map Lit.var ↔ ManageVars.nUsed w.vm ≤ v ∧ v < ManageVars.nUsed vm' := by
    intro v
    rw [t1]
    simp only [List.mem_map, List.mem_range]
    constructor
    · rintro ⟨_, ⟨i, hi, rfl⟩, rfl⟩
      rw [Lit.var_pos]; omega
    · rintro ⟨h3, h4⟩
      exact ⟨_, ⟨v - ManageVars.nUsed w.vm, by omega, rfl⟩, by rw [Lit.var_pos]; omega⟩
  have hho : ∀ v, v ∈ CardWorld.handedOut w.vm vm' ↔ v ∈ s.tares.map Lit.var := by
    intro v
    rw [htv]
    unfold CardWorld.handedOut
    rw [List.mem_range'_1]
    omega
  have hold : ∀ t ∈ w.tares, t.var < ManageVars.nUsed w.vm := fun t ht => h.core.insLt t (List.mem_append_right _ ht)
  have hext : ExtD (q' ≠ []) (lits.map (·.1) ++ s.tares) w.db db' :=
    (ExtD.mono (ExtD.weaken he) fun l hl => List.mem_append_left _ hl).trans (x1.mono fun l hl => List.mem_append_right _ hl)
  have htares : ∀ t, t ∈ (w.dogs ++ [(s, lits)]).flatMap (·.1.tares) ↔ t ∈ w.tares ∨ t ∈ s.tares := by
    intro t
    simp [tares]
  refine ⟨_, rfl, ⟨?_, fun hp => ?_, fun x hx => ?_, fun x hx => ?_, fun x hx => ?_, fun x hx y hy hne t ht => ?_, fun t ht => ?_, fun l hl ht => ?_⟩,
    ⟨_, _, hext⟩, rfl, rfl, rfl, rfl, rfl⟩
  · refine (((h.core.more hle).add (lits.map (·.1) ++ s.tares) fun l hl => ?_).ext hext w1 fun l hl => List.mem_append_right _ hl).congr (fun l => ?_) fun v => ?_
    · rcases List.mem_append.1 hl with hl | hl
      · obtain ⟨x, hx, rfl⟩ := List.mem_map.1 hl
        exact ⟨Nat.lt_of_lt_of_le (hL x hx).1 hle, fun ho => (hL x hx).2 (mem_out.1 ho).1⟩
      · have h1 := (htv l.var).1 (List.mem_map.2 ⟨l, hl, rfl⟩)
        refine ⟨h1.2, fun ho => ?_⟩
        have := h.core.ownLt _ ho
        omega
    · show l ∈ (w.ins ++ lits.map (·.1)) ++ (w.dogs ++ [(s, lits)]).flatMap (·.1.tares) ↔ l ∈ (w.ins ++ w.tares) ++ (lits.map (·.1) ++ s.tares)
      rw [List.mem_append, htares]
      simp only [List.mem_append]
      tauto
    · rw [mem_out, mem_out]
      show v ∈ w.own ++ CardWorld.handedOut w.vm vm' ∧ v ∉ ((w.dogs ++ [(s, lits)]).flatMap (·.1.tares)).map Lit.var ↔ v ∈ w.own ∧ v ∉ w.tares.map Lit.var
      have hm : v ∈ ((w.dogs ++ [(s, lits)]).flatMap (·.1.tares)).map Lit.var ↔ v ∈ w.tares.map Lit.var ∨ v ∈ s.tares.map Lit.var := by
        simp only [List.mem_map, htares]
        constructor
        · rintro ⟨t, h1 | h1, h2⟩
          · exact Or.inl ⟨t, h1, h2⟩
          · exact Or.inr ⟨t, h1, h2⟩
        · rintro (⟨t, h1, h2⟩ | ⟨t, h1, h2⟩)
          · exact ⟨t, Or.inl h1, h2⟩
          · exact ⟨t, Or.inr h1, h2⟩
      rw [List.mem_append, hho, hm]
      constructor
      · rintro ⟨h1, h2⟩
        exact ⟨h1.resolve_right fun h3 => h2 (Or.inr h3), fun h3 => h2 (Or.inl h3)⟩
      · rintro ⟨h1, h2⟩
        refine ⟨Or.inl h1, fun h3 => h3.elim h2 fun h3 => ?_⟩
        have h4 := h.ownLt v h1
        have h5 := (htv v).1 h3
        omega
  · have hpre : d ≤ 1 := by
      have := hp (s, lits) (by simp)
      simp only at this
      omega
    have hnil : q' = [] := by
      cases hq' : q' with
      | nil => rfl
      | cons e qs =>
        have h1 := l1 e (by rw [hq']; simp)
        have h2 := o1.pos e (by rw [hq']; simp)
        have : 2 ^ (digits d 2 - 1) = 1 := by
          rcases (by omega : d = 0 ∨ d = 1) with rfl | rfl <;> decide
        omega
    have hx : Ext (lits.map (·.1) ++ s.tares) w.db db' := ExtD.imp hext fun h => h hnil
    exact ExtD.allReal hx (h.real fun x hx => hp x (List.mem_append_left _ hx))
  · have := (h.cards x hx).ext hext h.core.wf
    exact ⟨this.lt, this.unit, this.val, fun l hl => List.mem_append_left _ (this.mem l hl), this.ne⟩
  · have := (h.sums x hx).ext hext h.core.wf w1
    exact ⟨this.gap, this.val, fun l hl => List.mem_append_left _ (this.mem l hl)⟩
  · rcases List.mem_append.1 hx with hx | hx
    · have := (h.dogs x hx).ext hext h.core.wf
      exact ⟨this.lt, this.unit, this.val, fun l hl => List.mem_append_left _ (this.mem l hl), this.tares⟩
    · rw [List.mem_singleton] at hx
      subst hx
      refine ⟨r1, g1, fun T => ?_, fun x hx => List.mem_append_right _ (List.mem_map.2 ⟨x, hx, rfl⟩),
        (List.range s.tares.length).map fun i => ManageVars.nUsed w.vm + i, ?_, ?_⟩
      · show value db' T s.root = _
        rw [v1 T, hsum, p1, hdiv]
      · exact List.Nodup.map (fun a b h => by simpa using h) List.nodup_range
      · conv_lhs => rw [t1]
        simp [Function.comp_def]
  · intro hv
    have key : ∀ z ∈ w.dogs, ∀ t ∈ z.1.tares, t.var ∉ s.tares.map Lit.var := by
      intro z hz t ht h1
      have h2 := hold t (mem_tares.2 ⟨z, hz, ht⟩)
      have h3 := (htv _).1 h1
      omega
    rcases List.mem_append.1 hx with hx | hx <;> rcases List.mem_append.1 hy with hy | hy
    · exact h.sep x hx y hy hne t ht hv
    · rw [List.mem_singleton] at hy
      subst hy
      exact key x hx t ht hv
    · rw [List.mem_singleton] at hx
      subst hx
      obtain ⟨t', ht', e⟩ := List.mem_map.1 hv
      exact key y hy t' ht' (e ▸ List.mem_map.2 ⟨t, ht, rfl⟩)
    · rw [List.mem_singleton] at hx hy
      subst hx
      subst hy
      exact hne rfl
  · rcases (htares t).1 ht with ht | ht
    · exact List.mem_append_left _ (h.tareOwn t ht)
    · exact List.mem_append_right _ ((hho _).2 (List.mem_map.2 ⟨t, ht, rfl⟩))
  · have hlt : l.var < ManageVars.nUsed w.vm ∧ l.var ∉ w.tares.map Lit.var := by
      rcases List.mem_append.1 hl with hl | hl
      · exact ⟨h.core.insLt l (List.mem_append_left _ hl), h.fresh l hl⟩
      · obtain ⟨x, hx, rfl⟩ := List.mem_map.1 hl
        refine ⟨(hL x hx).1, fun h1 => ?_⟩
        obtain ⟨t, ht, e⟩ := List.mem_map.1 h1
        exact (hL x hx).2 (e ▸ h.tareOwn t ht)
    obtain ⟨t, ht, e⟩ := List.mem_map.1 ht
    rcases (htares t).1 ht with ht | ht
    · exact hlt.2 (List.mem_map.2 ⟨t, ht, e⟩)
    · have := (htv l.var).1 (List.mem_map.2 ⟨t, ht, e⟩)
      omega

omit [LawfulVM VM] in
theorem AvailD.grow {w w' : SharedWorld VM} (h : w.AvailD) (hw : w.db.WF) (he : ∃ L dm, ExtD dm L w.db w'.db) (hc : w'.cls = w.cls) (hd : w'.dub = w.dub) :
    w'.AvailD := by
  obtain ⟨L, dm, he⟩ := he
  intro s b hb
  rw [hd] at hb
  rw [hc]
  exact AvailD.ext he hw (h s b hb)

/-- The outputs for the bounds of a range are encoded. -/
theorem dog_call {w : SharedWorld VM} {db0 : Db} (h0 : DbRel LitKeep w.db db0) (hc0 : Core db0 (ManageVars.nUsed w.vm) w.cls (w.ins ++ w.tares) w.out)
    {s : Dpw.Structure} {lits : List (Lit × Nat)} (hdog : DogOK db0 w.ins s lits) (r : URange) :
    ∃ st, Call w db0 (RefDpw.encodeUbChange s r (⟨db0, w.vm, w.cls⟩ : St VM)) st ∧
      ∀ b, r.contains b → (st.db.node s.root).maxVal ≤ b / 2 ^ s.tares.length ∨ ∃ l, HasLit st.db s.root (b / 2 ^ s.tares.length) .if_ l := by
  have hw := hc0.wf
  have hN := Nat.two_pow_pos s.tares.length
  have hmax : (db0.node s.root).maxVal = (db0.node s.root).len := by
    rw [← value_all_max hw, value_all hw _ hdog.unit]
  have hiff := fun b => Gte.Inv.prepareUb_iff (ws := RefDpw.weightSum db0 s) (r := r) (b := b)
  rw [RefDpw.encodeUbChange]
  simp only
  generalize Pb.prepareUbRange (RefDpw.weightSum db0 s) r = range at hiff ⊢
  have hbig : ∀ b, RefDpw.weightSum db0 s ≤ b → (db0.node s.root).maxVal ≤ b / 2 ^ s.tares.length := by
    intro b hb
    rw [hmax, Nat.le_div_iff_mul_le hN]
    exact hb
  by_cases hemp : range.2 ≤ range.1
  · rw [if_pos hemp]
    refine ⟨_, ⟨rfl, h0, hc0, Step.refl _⟩, fun b hb => Or.inl (hbig b ?_)⟩
    rcases Nat.lt_or_ge b (RefDpw.weightSum db0 s) with h1 | h1
    · have := (hiff b).2 ⟨hb, h1⟩
      omega
    · exact h1
  · rw [if_neg hemp]
    obtain ⟨st, e, hs, hl, -⟩ := Dpw.encodeOutputs_spec s.root (rangeIncl (range.1 / 2 ^ s.outputPower) ((range.2 - 1) / 2 ^ s.outputPower))
      (⟨db0, w.vm, w.cls⟩ : St VM) hw hdog.unit
    refine ⟨st, ⟨e, h0, hc0, hs⟩, fun b hb => ?_⟩
    have hr : DbRef db0 st.db := hs.ref
    have hmv : (st.db.node s.root).maxVal = (db0.node s.root).maxVal := by
      rw [← value_all_max (hr.wf hw), hr.value hw, value_all_max hw]
    rw [hmv]
    rcases Nat.lt_or_ge (b / 2 ^ s.tares.length) (db0.node s.root).maxVal with h1 | h1
    · refine Or.inr (hl _ ?_ h1)
      have h2 : b < RefDpw.weightSum db0 s := by
        rcases Nat.lt_or_ge b (RefDpw.weightSum db0 s) with h3 | h3
        · exact h3
        · have := hbig b h3
          omega
      have h3 := (hiff b).2 ⟨hb, h2⟩
      have h4 : range.1 / 2 ^ s.outputPower ≤ b / 2 ^ s.tares.length := Nat.div_le_div_right h3.1
      have h5 : b / 2 ^ s.tares.length ≤ (range.2 - 1) / 2 ^ s.outputPower := Nat.div_le_div_right (by omega)
      unfold rangeIncl
      rw [List.mem_range'_1]
      omega
    · exact Or.inl h1

theorem csum_full {db : Db} {ins : List Lit} (T : Lit → Bool) : ∀ (trees : List (Nat × List Lit)), (∀ t ∈ trees, CardOK db ins t.1 t.2) →
    ((trees.map fun t => NodeCon.full t.1).map (conVal db T)).sum = cnt T (trees.flatMap (·.2))
  | [], _ => rfl
  | t :: trees, h => by
    have := csum_full T trees fun t ht => h t (List.mem_cons_of_mem _ ht)
    rw [List.map_cons, List.map_cons, List.sum_cons, this, List.flatMap_cons, cnt_append, conVal_full, (h t List.mem_cons_self).val]

theorem treeLits_sum {db : Db} {ins : List Lit} (f : Nat → Nat) (T : Lit → Bool) : ∀ (trees : List ((Nat × List Lit) × Nat)),
    (∀ t ∈ trees, CardOK db ins t.1.1 t.1.2) →
    ((trees.map fun t => (t.1.1, t.2)).map fun t => f t.2 * value db T t.1).sum = wsumT T ((treeLits trees).map fun x => (x.1, f x.2))
  | [], _ => rfl
  | t :: trees, h => by
    have ih := treeLits_sum f T trees fun t ht => h t (List.mem_cons_of_mem _ ht)
    have hone : ∀ lits : List Lit, wsumT T ((lits.map (·, t.2)).map fun x => (x.1, f x.2)) = f t.2 * cnt T lits := by
      intro lits
      induction lits with
      | nil => simp [wsumT, cnt]
      | cons l lits ih =>
        simp only [wsumT, List.map_cons, List.sum_cons] at ih ⊢
        rw [ih, show cnt T (l :: lits) = (if T l then 1 else 0) + cnt T lits by
          unfold cnt
          rw [List.map_cons, List.sum_cons], Nat.mul_add]
        congr 1
        cases T l <;> simp
    rw [List.map_cons, List.map_cons, List.sum_cons, ih, (h t List.mem_cons_self).val]
    unfold treeLits
    rw [List.flatMap_cons, List.map_append, wsumT_append, hone]

theorem step_spec (w : SharedWorld VM) (h : w.Inv) (op : SharedOp VM) (ha : w.allowed op) : ∃ w', w.step op = some w' ∧ Next w w' op := by
  have hw := h.core.wf
  have keep0 := keepRefl w.db
  have keep1 := keepReset w.db .if_
  have core1 := h.core.reset .if_
  cases op with
  | litTree lits =>
    simp only [step]
    by_cases hne : lits = []
    · subst hne
      exact ⟨w, rfl, h, fun h _ => h, fun h => h, fun h => h⟩
    · obtain ⟨id, db', e, h1, h2, h3, h4, h5⟩ := litTree_spec hw hne
      rw [e]
      refine ⟨_, rfl, ?_, fun hu _ => ⟨hu.1.ext h2, hu.2.ext h2⟩, fun hl => hl.ext h2, fun hd => hd.grow hw ⟨_, _, h2⟩ rfl rfl⟩
      have := h.grow (L := lits) ha (fun l hl => List.mem_append_right _ hl) h2 h1 [(id, lits)] [] (fun x hx => by
        rw [List.mem_singleton] at hx
        subst hx
        exact ⟨h3, h4, h5, fun l hl => List.mem_append_right _ hl, hne⟩) (fun x hx => by cases hx)
      simpa using this
  | weightedLitTree lits =>
    simp only [step]
    by_cases hne : lits = []
    · subst hne
      exact ⟨w, rfl, h, fun h _ => h, fun h => h, fun h => h⟩
    · obtain ⟨con, db', e, h1, h2, h3, h4⟩ := weightedLitTree_gap hw hne fun x hx => (ha x hx).1
      rw [e]
      refine ⟨_, rfl, ?_, fun hu _ => ⟨hu.1.ext h2, hu.2.ext h2⟩, fun hl => hl.ext h2, fun hd => hd.grow hw ⟨_, _, h2⟩ rfl rfl⟩
      have := h.grow (L := lits.map (·.1)) (fun l hl => by
        obtain ⟨x, hx, rfl⟩ := List.mem_map.1 hl
        exact (ha x hx).2) (fun l hl => List.mem_append_right _ hl) h2 h1 [] [(con, lits)] (fun x hx => by cases hx) (fun x hx => by
        rw [List.mem_singleton] at hx
        subst hx
        exact ⟨h3, h4, fun x hx => List.mem_append_right _ (List.mem_map.2 ⟨x, hx, rfl⟩)⟩)
      simpa using this
  | join trees =>
    simp only [step]
    have hok : ∀ t ∈ trees, CardOK w.db w.ins t.1 t.2 := fun t ht => h.cards t (ha t ht)
    by_cases hne : trees = []
    · subst hne
      exact ⟨w, rfl, h, fun h _ => h, fun h => h, fun h => h⟩
    · obtain ⟨con, db', e, h1, h2, h3, h4⟩ := merge_spec mergeable_full hw (cons := trees.map fun t => NodeCon.full t.1) (by simpa using hne)
        fun c hc => by
          obtain ⟨t, ht, rfl⟩ := List.mem_map.1 hc
          exact ⟨full_unit (hok t ht).lt (hok t ht).unit, rfl⟩
      rw [e]
      refine ⟨_, rfl, ?_, fun hu _ => ⟨hu.1.ext h2, hu.2.ext h2⟩, fun hl => hl.ext h2, fun hd => hd.grow hw ⟨_, _, h2⟩ rfl rfl⟩
      have := h.grow (L := []) (fun l hl => by cases hl) (fun l hl => by cases hl) h2 h1 [(con.id, trees.flatMap (·.2))] [] (fun x hx => by
        rw [List.mem_singleton] at hx
        subst hx
        refine ⟨h3.1.id, h3.1.notGeneral, fun T => ?_, fun l hl => ?_, fun hnil => ?_⟩
        · rw [← csum_full T trees hok, ← conVal_full, ← h3.2]
          exact h4 T
        · obtain ⟨t, ht, hl⟩ := List.mem_flatMap.1 hl
          exact List.mem_append_left _ ((hok t ht).mem l hl)
        · obtain ⟨t, ht⟩ := List.exists_mem_of_ne_nil _ hne
          obtain ⟨l, hl⟩ := List.exists_mem_of_ne_nil _ (hok t ht).ne
          have : l ∈ trees.flatMap (·.2) := List.mem_flatMap.2 ⟨t, ht, hl⟩
          simp only at hnil
          rw [hnil] at this
          cases this) (fun x hx => by cases hx)
      simpa using this
  | totUb root r =>
    obtain ⟨lits, hc⟩ := ha
    obtain ⟨st, c, av⟩ := tot_ub_call keep1 core1 ((h.cards _ hc).rel keep1 hw) r
    have e : RefTot.encodeUb root r w.st = some st := c.eq
    simp only [step, called, e]
    exact ⟨_, rfl, h.step keep1 core1 c.step _ _ _ _, fun _ _ => ⟨fun i b hb => av i b (hb.resolve_left id), fun _ _ _ hb => hb.elim⟩,
      fun hl => hl.reset.ref c.step.ref, fun hd => hd.step keep1 hw core1.wf c.step⟩
  | totUbChange root r =>
    obtain ⟨lits, hc⟩ := ha
    obtain ⟨st, c, av⟩ := tot_ub_call keep0 h.core (h.cards _ hc) r
    have e : RefTot.encodeUbChange root r w.st = some st := c.eq
    simp only [step, called, e]
    exact ⟨_, rfl, h.step keep0 h.core c.step _ _ _ _, fun hu _ => ⟨(hu.1.ref c.step.ref).or av, hu.2.ref c.step.ref⟩,
      fun hl => hl.ref c.step.ref, fun hd => hd.step keep0 hw hw c.step⟩
  | totLb root r =>
    obtain ⟨lits, hc⟩ := ha
    obtain ⟨st, c, av⟩ := tot_lb_call keep1 core1 ((h.cards _ hc).rel keep1 hw) r
    have e : RefTot.encodeLb root r w.st = some st := c.eq
    simp only [step, called, e]
    exact ⟨_, rfl, h.step keep1 core1 c.step _ _ _ _, fun _ hno => absurd rfl (hno root r),
      fun hl => fun i b hb => av i b (hb.resolve_left id), fun hd => hd.step keep1 hw core1.wf c.step⟩
  | totLbChange root r =>
    obtain ⟨lits, hc⟩ := ha
    obtain ⟨st, c, av⟩ := tot_lb_call keep0 h.core (h.cards _ hc) r
    have e : RefTot.encodeLbChange root r w.st = some st := c.eq
    simp only [step, called, e]
    exact ⟨_, rfl, h.step keep0 h.core c.step _ _ _ _, fun hu _ => ⟨hu.1.ref c.step.ref, hu.2.ref c.step.ref⟩,
      fun hl => (Av.ref c.step.ref hl).or av, fun hd => hd.step keep0 hw hw c.step⟩
  | totBoth root r =>
    obtain ⟨lits, hc⟩ := ha
    obtain ⟨st1, c1, av1⟩ := tot_ub_call keep0 h.core (h.cards _ hc) r
    have i1 := h.step keep0 h.core c1.step (also w.ub root r) w.lb w.wub w.dub
    obtain ⟨st2, c2, av2⟩ := tot_lb_call (keepRefl st1.db) i1.core (i1.cards _ hc) r
    have i2 := i1.step (keepRefl st1.db) i1.core c2.step (also w.ub root r) (also w.lb root r) w.wub w.dub
    have e : RefTot.encodeBoth root r w.st = some st2 := by
      rw [RefTot.encodeBoth, show RefTot.encodeUbChange root r w.st = some st1 from c1.eq]
      exact c2.eq
    simp only [step, called, e]
    refine ⟨_, rfl, ?_, fun hu _ => ⟨((hu.1.ref c1.step.ref).or av1).ref c2.step.ref, (hu.2.ref c1.step.ref).ref c2.step.ref⟩,
      fun hl => (Av.ref c2.step.ref (Av.ref c1.step.ref hl)).or av2, fun hd => ?_⟩
    swap
    · have hd1 := hd.step keep0 hw hw c1.step
      exact AvailD.step (w := { w with db := st1.db, vm := st1.vm, cls := st1.cls, own := w.own ++ CardWorld.handedOut w.vm st1.vm, ub := also w.ub root r })
        hd1 (keepRefl st1.db) i1.core.wf i1.core.wf c2.step
    simp only
    rw [show CardWorld.handedOut w.vm st2.vm = CardWorld.handedOut w.vm st1.vm ++ CardWorld.handedOut st1.vm st2.vm from
      (Totalizer.Inv.handedOut_trans c1.step.used c2.step.used).symm, ← List.append_assoc]
    exact i2
  | totReserve root =>
    obtain ⟨lits, hc⟩ := ha
    obtain ⟨st, c⟩ := reserve_call h (con := NodeCon.full root) (Or.inr (Nat.zero_le _))
    have e : RefTot.reserve root w.st = some st := c.eq
    simp only [step, called, e]
    exact ⟨_, rfl, h.step keep0 h.core c.step _ _ _ _, fun hu _ => ⟨hu.1.ref c.step.ref, hu.2.ref c.step.ref⟩, fun hl => hl.ref c.step.ref, fun hd => hd.step keep0 hw hw c.step⟩
  | gteUb con M r =>
    obtain ⟨lits, hc, -⟩ := ha
    have hs := (h.sums _ hc).rel keep1 hw
    obtain ⟨st, c, av⟩ := weighted_call keep1 core1 hs M r
    have e : RefGte.encodeUb con M r w.st = some st := c.eq
    simp only [step, called, e]
    refine ⟨_, rfl, h.step keep1 core1 c.step _ _ _ _, fun _ _ => ⟨fun _ _ hb => hb.elim, ?_⟩, fun hl => hl.reset.ref c.step.ref, fun hd => hd.step keep1 hw core1.wf c.step⟩
    rintro c' M' b (hb | ⟨rfl, rfl, hb⟩)
    · exact hb.elim
    · exact ⟨by rw [c.step.ref.len]; exact hs.plain.id, av b hb⟩
  | gteUbChange con M r =>
    obtain ⟨lits, hc, -⟩ := ha
    have hs := h.sums _ hc
    obtain ⟨st, c, av⟩ := weighted_call keep0 h.core hs M r
    have e : RefGte.encodeUbChange con M r w.st = some st := c.eq
    simp only [step, called, e]
    refine ⟨_, rfl, h.step keep0 h.core c.step _ _ _ _, fun hu _ => ⟨hu.1.ref c.step.ref, (hu.2.ref c.step.ref).or ?_⟩,
      fun hl => hl.ref c.step.ref, fun hd => hd.step keep0 hw hw c.step⟩
    rintro c' M' b ⟨rfl, rfl, hb⟩
    exact ⟨by rw [c.step.ref.len]; exact hs.plain.id, av b hb⟩
  | gteReserve con =>
    obtain ⟨lits, hc⟩ := ha
    obtain ⟨st, c⟩ := reserve_call h (con := con) (Or.inr (by rw [(h.sums _ hc).plain.offset]; exact Nat.zero_le _))
    have e : RefGte.reserve con w.st = some st := c.eq
    simp only [step, called, e]
    exact ⟨_, rfl, h.step keep0 h.core c.step _ _ _ _, fun hu _ => ⟨hu.1.ref c.step.ref, hu.2.ref c.step.ref⟩, fun hl => hl.ref c.step.ref, fun hd => hd.step keep0 hw hw c.step⟩
  | watchdog lits d =>
    obtain ⟨hl, hd, x, hx, hdx⟩ := ha
    have hz : (lits.any fun x => x.2 == 0) = false := by
      rw [Bool.eq_false_iff]
      intro hz
      obtain ⟨y, hy, e⟩ := List.any_eq_true.1 hz
      have := (hl y hy).1
      simp at e
      omega
    obtain ⟨q1, q2, q3, q4, q5, -⟩ := Dpw.litWeightQueue_spec lits w.db [] hw ⟨List.Pairwise.nil, by simp, by simp, by simp⟩ fun x hx => (hl x hx).1
    obtain ⟨e, he, e1⟩ := q5 x hx
    obtain ⟨w', e2, i, hx, u1, u2, u3, u4, u5⟩ := h.dog hd (fun x hx => (hl x hx).2) q2 q1 q3 ⟨e, he, by omega⟩ fun f T => by
      rw [q4]; simp [Dpw.qsum]
    refine ⟨w', ?_, i, fun hu _ => ?_, fun hl => ?_, fun hd => hd.grow hw hx u5 u4⟩
    · simp only [step, RefDpw.ofLits, hz]
      exact e2
    · obtain ⟨_, _, hx⟩ := hx
      unfold AvailU
      rw [u1, u3]
      exact ⟨hu.1.ext hx, hu.2.ext hx⟩
    · obtain ⟨_, _, hx⟩ := hx
      unfold AvailL
      rw [u2]
      exact Av.ext hx hl
  | watchdogOf trees d =>
    obtain ⟨hl, hd, x, hx, hdx⟩ := ha
    have hz : ((trees.map fun t => (t.1.1, t.2)).any fun x => x.2 == 0) = false := by
      rw [Bool.eq_false_iff]
      intro hz
      obtain ⟨y, hy, e⟩ := List.any_eq_true.1 hz
      obtain ⟨t, ht, rfl⟩ := List.mem_map.1 hy
      have := (hl t ht).1
      simp at e
      omega
    have hok : ∀ t ∈ trees, CardOK w.db w.ins t.1.1 t.1.2 := fun t ht => h.cards _ (hl t ht).2
    obtain ⟨q3, q4, q5, -⟩ := conWeightQueue_spec hw (trees.map fun t => (t.1.1, t.2)) [] ⟨List.Pairwise.nil, by simp, by simp, by simp⟩ fun y hy => by
      obtain ⟨t, ht, rfl⟩ := List.mem_map.1 hy
      refine ⟨(hl t ht).1, ⟨full_unit (hok t ht).lt (hok t ht).unit, rfl⟩, ?_⟩
      rw [conVal_full, (hok t ht).val, cnt_all]
      exact List.length_pos_iff.2 (hok t ht).ne
    obtain ⟨e, he, e1⟩ := q5 (x.1.1, x.2) (List.mem_map.2 ⟨x, hx, rfl⟩)
    obtain ⟨w', e2, i, hx, u1, u2, u3, u4, u5⟩ := h.dog (lits := treeLits trees) hd (fun x hx => by
        obtain ⟨t, ht, hx⟩ := List.mem_flatMap.1 hx
        obtain ⟨l, hl', rfl⟩ := List.mem_map.1 hx
        have hm := (hok t ht).mem l hl'
        exact ⟨h.core.insLt l (List.mem_append_left _ hm), h.insOwn l hm⟩) (Ext.refl _ _) hw q3 ⟨e, he, by simp only at e1; omega⟩ fun f T => by
      rw [q4, treeLits_sum f T trees hok]; simp [Dpw.qsum]
    refine ⟨w', ?_, i, fun hu _ => ?_, fun hl => ?_, fun hd => hd.grow hw hx u5 u4⟩
    · simp only [step, RefDpw.ofTrees, hz]
      exact e2
    · obtain ⟨_, _, hx⟩ := hx
      unfold AvailU
      rw [u1, u3]
      exact ⟨hu.1.ext hx, hu.2.ext hx⟩
    · obtain ⟨_, _, hx⟩ := hx
      unfold AvailL
      rw [u2]
      exact Av.ext hx hl
  | dogUb s r =>
    obtain ⟨lits, hc⟩ := ha
    have hok : DogOK w.db w.ins s lits := h.dogs _ hc
    obtain ⟨st, c, av⟩ := dog_call keep1 core1 (hok.rel keep1 hw) r
    have e : RefDpw.encodeUb s r w.st = some st := c.eq
    simp only [step, called, e]
    have i := h.step keep1 core1 c.step nothing w.lb nothingW (alsoD w.dub s r)
    refine ⟨_, rfl, i, fun _ _ => ⟨fun _ _ hb => hb.elim, fun _ _ _ hb => hb.elim⟩, fun hl => hl.reset.ref c.step.ref, fun hd => ?_⟩
    rintro s' b (hb | ⟨rfl, hb⟩)
    · exact hd.step keep1 hw core1.wf c.step s' b hb
    · refine ⟨(i.dogs _ hc).lt, (i.dogs _ hc).unit, (av b hb).imp id ?_⟩
      rintro ⟨l, hl⟩
      exact Dpw.HasLit.good i.core.wf hl i.core.soundIf
  | dogUbChange s r =>
    obtain ⟨lits, hc⟩ := ha
    have hok : DogOK w.db w.ins s lits := h.dogs _ hc
    obtain ⟨st, c, av⟩ := dog_call keep0 h.core hok r
    have e : RefDpw.encodeUbChange s r w.st = some st := c.eq
    simp only [step, called, e]
    have i := h.step keep0 h.core c.step w.ub w.lb w.wub (alsoD w.dub s r)
    refine ⟨_, rfl, i, fun hu _ => ⟨hu.1.ref c.step.ref, hu.2.ref c.step.ref⟩, fun hl => hl.ref c.step.ref, fun hd => ?_⟩
    rintro s' b (hb | ⟨rfl, hb⟩)
    · exact hd.step keep0 hw hw c.step s' b hb
    · refine ⟨(i.dogs _ hc).lt, (i.dogs _ hc).unit, (av b hb).imp id ?_⟩
      rintro ⟨l, hl⟩
      exact Dpw.HasLit.good i.core.wf hl i.core.soundIf
  | dogReserve s =>
    obtain ⟨lits, hc⟩ := ha
    obtain ⟨st, c⟩ := reserve_call h (con := NodeCon.full s.root) (Or.inr (Nat.zero_le _))
    have e : RefDpw.reserve s w.st = some st := c.eq
    simp only [step, called, e]
    exact ⟨_, rfl, h.step keep0 h.core c.step _ _ _ _, fun hu _ => ⟨hu.1.ref c.step.ref, hu.2.ref c.step.ref⟩, fun hl => hl.ref c.step.ref, fun hd => hd.step keep0 hw hw c.step⟩
  | useVars vm => exact ⟨_, rfl, ⟨h.core.more ha, h.real, h.cards, h.sums, h.dogs, h.sep, h.tareOwn, h.fresh⟩, fun h _ => h, fun h => h, fun h => h⟩
  | resetVars vm => exact ⟨_, rfl, h.resetVars ha, fun _ _ => ⟨fun _ _ hb => hb.elim, fun _ _ _ hb => hb.elim⟩, fun _ _ _ hb => hb.elim, fun _ _ _ hb => hb.elim⟩

omit [LawfulVM VM] in
theorem start_inv (vm : VM) : (start vm).Inv :=
  ⟨(CardWorld.start_inv [] vm (fun l hl => by cases hl)).tot.core, fun _ => (CardWorld.start_inv [] vm (fun l hl => by cases hl)).tot.real,
    fun _ hx => (by cases hx), fun _ hx => (by cases hx), fun _ hx => (by cases hx), fun _ hx => (by cases hx), fun _ hx => (by cases hx),
    fun _ hx => (by cases hx)⟩

theorem Reach.inv {R : SharedOp VM → Prop} {w : SharedWorld VM} (h : Reach R w) : w.Inv := by
  induction h with
  | start vm => exact start_inv vm
  | step w w' op _ _ ha hs ih =>
    obtain ⟨w2, e, n⟩ := step_spec w ih op ha
    rw [e] at hs
    cases hs
    exact n.inv

theorem Reach.availL {R : SharedOp VM → Prop} {w : SharedWorld VM} (h : Reach R w) : w.AvailL := by
  induction h with
  | start vm => exact fun _ _ hb => hb.elim
  | step w w' op h _ ha hs ih =>
    obtain ⟨w2, e, n⟩ := step_spec w h.inv op ha
    rw [e] at hs
    cases hs
    exact n.availL ih

theorem Reach.availD {R : SharedOp VM → Prop} {w : SharedWorld VM} (h : Reach R w) : w.AvailD := by
  induction h with
  | start vm => exact fun _ _ hb => hb.elim
  | step w w' op h _ ha hs ih =>
    obtain ⟨w2, e, n⟩ := step_spec w h.inv op ha
    rw [e] at hs
    cases hs
    exact n.availD ih

theorem Reach.availU {w : SharedWorld VM} (h : Reach (fun op => ∀ root r, op ≠ .totLb root r) w) : w.AvailU := by
  induction h with
  | start vm => exact ⟨fun _ _ hb => hb.elim, fun _ _ _ hb => hb.elim⟩
  | step w w' op h hno ha hs ih =>
    obtain ⟨w2, e, n⟩ := step_spec w h.inv op ha
    rw [e] at hs
    cases hs
    exact n.availU ih hno

/-! ### Enforcing bounds -/

theorem enforceUb_cases {db : Db} (hw : db.WF) {ins lits : List Lit} {id : Nat} (h : CardOK db ins id lits) (b : Nat) :
    (lits.length ≤ b ∧ RefTot.enforceUb db id b = .ok []) ∨
    (b < lits.length ∧ RefTot.enforceUb db id b = .err .notEncoded ∧ ¬ ∃ l, HasLit db id b .if_ l) ∨
    (b < lits.length ∧ ∃ l, HasLit db id b .if_ l ∧ RefTot.enforceUb db id b = .ok [l.neg]) := by
  have hlen := h.len hw
  unfold RefTot.enforceUb RefTot.nLits
  rw [hlen]
  by_cases hb : b ≥ lits.length
  · rw [if_pos hb]; exact Or.inl ⟨hb, rfl⟩
  · rw [if_neg hb]
    have hlt : b < lits.length := Nat.lt_of_not_le hb
    refine Or.inr ?_
    cases hn : db.node id with
    | leaf l =>
      rw [hn] at hlen
      simp only [Node.len] at hlen
      exact Or.inr ⟨hlt, l, Or.inl ⟨hn, by omega⟩, rfl⟩
    | dummy => rw [hn] at hlen; simp only [Node.len] at hlen; omega
    | general => have := h.unit; rw [hn] at this; cases this
    | unit ls d nl lc rc =>
      rw [hn] at hlen
      simp only [Node.len] at hlen
      have hg : (db.node id).isGeneral = false := h.unit
      have hnot : ∀ d, ls[b]? = some d → (∀ l s, d = .lit l (some s) → s.hasIf = false) → ¬ ∃ l, HasLit db id b .if_ l := by
        rintro d hd hno ⟨l, hl⟩
        rcases hl with ⟨hl, -⟩ | ⟨s, -, hl, hs, -⟩
        · rw [hn] at hl; cases hl
        · rw [hn] at hl
          simp only [Node.outData, hd, Option.map_some, Option.some.injEq, Prod.mk.injEq] at hl
          rw [hno l s hl.2] at hs
          exact absurd (hs rfl) (by simp)
      have hget : ls[b]? = some ls[b] := List.getElem?_eq_getElem (by omega)
      simp only [hget]
      generalize ls[b] = d at hget
      match d with
      | .none => exact Or.inl ⟨hlt, rfl, hnot _ hget (by intro l s he; cases he)⟩
      | .lit l none => exact Or.inl ⟨hlt, rfl, hnot _ hget (by intro l s he; cases he)⟩
      | .lit l (some s) =>
        cases hs : s.hasIf with
        | true =>
          refine Or.inr ⟨hlt, l, Or.inr ⟨s, hg, ?_, fun _ => hs, fun h => (by cases h)⟩, by simp [hs]⟩
          rw [hn]
          simp [Node.outData, hget]
        | false => exact Or.inl ⟨hlt, by simp [hs], hnot _ hget (by intro l' s' he; cases he; exact hs)⟩

theorem enforceLb_cases {db : Db} (hw : db.WF) {ins lits : List Lit} {id : Nat} (h : CardOK db ins id lits) (b : Nat) :
    (lits.length ≤ b ∧ RefTot.enforceLb db id (b + 1) = .err .unsat) ∨
    (b < lits.length ∧ RefTot.enforceLb db id (b + 1) = .err .notEncoded ∧ ¬ ∃ l, HasLit db id b .onlyIf l) ∨
    (b < lits.length ∧ ∃ l, HasLit db id b .onlyIf l ∧ RefTot.enforceLb db id (b + 1) = .ok [l]) := by
  have hlen := h.len hw
  unfold RefTot.enforceLb RefTot.nLits
  rw [hlen]
  by_cases hb : b + 1 > lits.length
  · rw [if_pos hb]; exact Or.inl ⟨by omega, rfl⟩
  · rw [if_neg hb]
    have hlt : b < lits.length := by omega
    refine Or.inr ?_
    cases hn : db.node id with
    | leaf l =>
      rw [hn] at hlen
      simp only [Node.len] at hlen
      exact Or.inr ⟨hlt, l, Or.inl ⟨hn, by omega⟩, rfl⟩
    | dummy => rw [hn] at hlen; simp only [Node.len] at hlen; omega
    | general => have := h.unit; rw [hn] at this; cases this
    | unit ls d nl lc rc =>
      rw [hn] at hlen
      simp only [Node.len] at hlen
      have hg : (db.node id).isGeneral = false := h.unit
      have hnot : ∀ d, ls[b]? = some d → (∀ l s, d = .lit l (some s) → s.hasOnlyIf = false) → ¬ ∃ l, HasLit db id b .onlyIf l := by
        rintro d hd hno ⟨l, hl⟩
        rcases hl with ⟨hl, -⟩ | ⟨s, -, hl, -, hs⟩
        · rw [hn] at hl; cases hl
        · rw [hn] at hl
          simp only [Node.outData, hd, Option.map_some, Option.some.injEq, Prod.mk.injEq] at hl
          rw [hno l s hl.2] at hs
          exact absurd (hs rfl) (by simp)
      have hget : ls[b]? = some ls[b] := List.getElem?_eq_getElem (by omega)
      simp only [Nat.add_sub_cancel, hget, Nat.add_eq_zero_iff, Nat.one_ne_zero, and_false, if_false]
      generalize ls[b] = d at hget
      match d with
      | .none => exact Or.inl ⟨hlt, rfl, hnot _ hget (by intro l s he; cases he)⟩
      | .lit l none => exact Or.inl ⟨hlt, rfl, hnot _ hget (by intro l s he; cases he)⟩
      | .lit l (some s) =>
        cases hs : s.hasOnlyIf with
        | true =>
          refine Or.inr ⟨hlt, l, Or.inr ⟨s, hg, ?_, fun h => (by cases h), fun _ => hs⟩, by simp [hs]⟩
          rw [hn]
          simp [Node.outData, hget]
        | false => exact Or.inl ⟨hlt, by simp [hs], hnot _ hget (by intro l' s' he; cases he; exact hs)⟩

theorem gteEnforce_cases {db : Db} (hw : db.WF) {ins : List Lit} {con : NodeCon} {lits : List (Lit × Nat)} (h : SumOK db ins con lits) (M b : Nat) :
    (wsumT (fun _ => true) lits ≤ b ∧ RefGte.enforceUb db con M b = .ok []) ∨
    (b < wsumT (fun _ => true) lits ∧ RefGte.enforceUb db con M b = .err .notEncoded ∧ ¬ WEnc db con M b) ∨
    (b < wsumT (fun _ => true) lits ∧ ∃ A, RefGte.enforceUb db con M b = .ok A ∧
      (∀ v ∈ (db.node con.id).valsFrom 1, b < con.map v → con.map v ≤ b + M → ∃ l, HasVal db con.id v l ∧ l.neg ∈ A) ∧
      ∀ x ∈ A, ∃ v l, b < con.map v ∧ HasVal db con.id v l ∧ x = l.neg) := by
  unfold RefGte.enforceUb
  rw [h.weightSum hw]
  by_cases hb : b ≥ wsumT (fun _ => true) lits
  · rw [if_pos hb]; exact Or.inl ⟨hb, rfl⟩
  · rw [if_neg hb]
    have hlt : b < wsumT (fun _ => true) lits := Nat.lt_of_not_le hb
    refine Or.inr ?_
    have hvals := fun v => Gte.mem_rootVals h.plain (lo := b) (hi := b + M) (v := v)
    generalize (db.node con.id).valsRange (con.revMapRoundUp (b + 1)) (con.revMap (b + M) + 1) = vals at hvals ⊢
    rcases Gte.enforceVals_spec hw vals fun v hv => ((hvals v).1 hv).1 with ⟨A, e, h1, h2⟩ | ⟨e, v, hv, h1⟩
    · refine Or.inr ⟨hlt, A, e, fun v hv h3 h4 => h1 v ((hvals v).2 ⟨hv, h3, h4⟩), fun x hx => ?_⟩
      obtain ⟨v, hv, l, hl, e'⟩ := h2 x hx
      exact ⟨v, l, ((hvals v).1 hv).2.1, hl, e'⟩
    · refine Or.inl ⟨hlt, e, fun henc => h1 ?_⟩
      obtain ⟨q1, q2, q3⟩ := (hvals v).1 hv
      exact henc v q1 q2 q3

theorem gte_sound {db : Db} (hw : db.WF) {ins : List Lit} {con : NodeCon} {lits : List (Lit × Nat)} (h : SumOK db ins con lits) {M b : Nat}
    (hM : ∀ x ∈ lits, x.2 ≤ M) {A : List Lit} (hA : RefGte.enforceUb db con M b = .ok A) {C : ClauseSet} (hC : SoundIf db C) {m : Asg}
    (hm : ClauseSet.sat m C) (hc : cubeSat m A) : wsum m lits ≤ b := by
  rw [wsum_eq_wsumT]
  rcases gteEnforce_cases hw h M b with ⟨hb, e⟩ | ⟨_, e, -⟩ | ⟨hb, A', e, h2, -⟩
  · exact Nat.le_trans (wsumT_le _ _) hb
  · rw [e] at hA; cases hA
  · rw [e] at hA; cases hA
    rcases Nat.lt_or_ge b (wsumT (trueLits m) lits) with hlt | hge
    · exfalso
      obtain ⟨v, ⟨u, hu, rfl⟩, h3, h4⟩ := (h.gap M hM).2 (trueLits m) b (by rw [h.val]; exact hlt)
      rcases hu.mem_vals hw with h0 | hmem
      · rw [h0, NodeCon.map_zero] at h3; omega
      · obtain ⟨l, hl, hlA⟩ := h2 u hmem h3 h4
        have h5 := hl.if_ hw hC hm (T := trueLits m) (fun x hx => hx) hu
        have h6 := hc _ hlA
        rw [Lit.holds_neg, h5] at h6
        cases h6
    · exact hge

omit [LawfulVM VM] in
theorem gte_complete {w : SharedWorld VM} (hi : w.Inv) {con : NodeCon} {lits : List (Lit × Nat)} (h : SumOK w.db w.ins con lits) {M b : Nat}
    {A : List Lit} (hA : RefGte.enforceUb w.db con M b = .ok A) {a : Asg} (ha : wsum a lits ≤ b) :
    ∃ m, (∀ v, v ∉ w.own → m v = a v) ∧ ClauseSet.sat m w.cls ∧ cubeSat m A := by
  obtain ⟨m, h1, h2, h3, h4'⟩ := hi.core.complete a
  have h4 : ∀ l ∈ w.ins, l.holds m = l.holds a := fun l hl => h4' l (List.mem_append_left _ hl)
  refine ⟨m, fun v hv => h1 v fun ho => hv (mem_out.1 ho).1, h3, fun x hx => ?_⟩
  have hsum : wsum m lits ≤ b := by
    rw [wsum_congr fun x hx => h4 x.1 (h.mem x hx)]; exact ha
  rw [wsum_eq_wsumT, ← h.val] at hsum
  rcases gteEnforce_cases hi.core.wf h M b with ⟨hb, e⟩ | ⟨_, e, -⟩ | ⟨hb, A', e, -, hA'⟩
  · rw [e] at hA; cases hA; cases hx
  · rw [e] at hA; cases hA
  · rw [e] at hA; cases hA
    obtain ⟨v, l, hv, hl, rfl⟩ := hA' x hx
    rw [Lit.holds_neg]
    cases hh : l.holds m with
    | false => rfl
    | true =>
      have hle := (hl.strict hi.core.wf h2).1 hh
      have := con.map_mono hle
      simp only [conVal] at hsum
      omega

theorem tot_sound {db : Db} (hw : db.WF) {ins lits : List Lit} {id : Nat} (h : CardOK db ins id lits) {b : Nat} {A : List Lit}
    (hA : RefTot.enforceUb db id b = .ok A) {C : ClauseSet} (hC : SoundIf db C) {m : Asg} (hm : ClauseSet.sat m C) (hc : cubeSat m A) :
    countTrue m lits ≤ b := by
  rcases enforceUb_cases hw h b with ⟨hb, e⟩ | ⟨_, e, -⟩ | ⟨hb, l, hl, e⟩
  · exact Nat.le_trans (countTrue_le_length _ _) hb
  · rw [e] at hA; cases hA
  · rw [e] at hA; cases hA
    rcases Nat.lt_or_ge b (countTrue m lits) with hlt | hge
    · exfalso
      rw [countTrue_eq_cnt, ← h.val] at hlt
      have := hl.if_ hw rfl hC hm (T := trueLits m) (fun x hx => hx) hlt
      have hc' : l.neg.holds m = true := hc _ (by simp)
      rw [Lit.holds_neg, this] at hc'
      cases hc'
    · exact hge

/-! ### Enforcing bounds of watchdogs -/

/-- The cases of `enforce_ub` of a watchdog. -/
theorem dogEnforce_cases {db : Db} {s : Dpw.Structure} (hg : (db.node s.root).isGeneral = false) (b : Nat) :
    ((db.node s.root).maxVal ≤ b / 2 ^ s.tares.length ∧ RefDpw.enforceUb db s b = .ok []) ∨
    (b / 2 ^ s.tares.length < (db.node s.root).maxVal ∧ RefDpw.enforceUb db s b = .err .notEncoded ∧ ¬ ∃ l, Dpw.RootLit db s.root (b / 2 ^ s.tares.length) l) ∨
    (b / 2 ^ s.tares.length < (db.node s.root).maxVal ∧ ∃ l, Dpw.RootLit db s.root (b / 2 ^ s.tares.length) l ∧
      RefDpw.enforceUb db s b = .ok (l.neg :: Dpw.tareLoop s.tares b s.tares.length ((b / 2 ^ s.tares.length + 1) * 2 ^ s.tares.length - 1))) := by
  unfold RefDpw.enforceUb Dpw.enforceStructure Dpw.Structure.outputPower
  simp only
  by_cases h1 : b / 2 ^ s.tares.length ≥ (db.node s.root).maxVal
  · rw [if_pos h1]
    exact Or.inl ⟨h1, rfl⟩
  · rw [if_neg h1]
    rcases Dpw.nodeLit_spec (k := b / 2 ^ s.tares.length) hg (by omega) with ⟨l, e, h2⟩ | ⟨e, h2⟩
    · rw [e]
      exact Or.inr (Or.inr ⟨by omega, l, h2, rfl⟩)
    · rw [e]
      exact Or.inr (Or.inl ⟨by omega, rfl, h2⟩)

theorem tare_arith (b n : Nat) : b ≤ (b / 2 ^ n + 1) * 2 ^ n - 1 ∧ (b / 2 ^ n + 1) * 2 ^ n - 1 < b + 2 ^ n ∧
    (b / 2 ^ n + 1) * 2 ^ n - 1 < (b / 2 ^ n + 1) * 2 ^ n := by
  have hN := Nat.two_pow_pos n
  have hmod := Nat.div_add_mod b (2 ^ n)
  have hlt := Nat.mod_lt b hN
  have hmul : (b / 2 ^ n + 1) * 2 ^ n = 2 ^ n * (b / 2 ^ n) + 2 ^ n := by
    rw [Nat.add_mul, Nat.one_mul, Nat.mul_comm]
  omega

theorem dog_sound {db : Db} (hw : db.WF) {ins : List Lit} {s : Dpw.Structure} {lits : List (Lit × Nat)} (h : DogOK db ins s lits) {b : Nat} {C : ClauseSet}
    (hg : (db.node s.root).maxVal ≤ b / 2 ^ s.tares.length ∨ Dpw.Good db C s.root (b / 2 ^ s.tares.length)) {A : List Lit}
    (hA : RefDpw.enforceUb db s b = .ok A) {m : Asg} (hm : ClauseSet.sat m C) (hc : cubeSat m A) : wsum m (divided s.precDiv lits) ≤ b := by
  rw [wsum_eq_wsumT]
  have hN := Nat.two_pow_pos s.tares.length
  obtain ⟨a1, a2, a3⟩ := tare_arith b s.tares.length
  rcases dogEnforce_cases h.unit b with ⟨h1, e⟩ | ⟨h1, e, h2⟩ | ⟨h1, l, h2, e⟩
  · have h3 := h.val fun _ => true
    rw [value_all_max hw, Dpw.tareVal_true] at h3
    rw [h3] at h1
    refine Nat.le_trans (wsumT_le _ _) ?_
    rcases Nat.lt_or_ge b (wsumT (fun _ => true) (divided s.precDiv lits)) with h4 | h4
    · exfalso
      have h5 : (b + 2 ^ s.tares.length) / 2 ^ s.tares.length ≤
          (wsumT (fun _ => true) (divided s.precDiv lits) + (2 ^ s.tares.length - 1)) / 2 ^ s.tares.length := Nat.div_le_div_right (by omega)
      rw [Nat.add_div_right _ hN] at h5
      omega
    · exact h4
  · rw [e] at hA; cases hA
  · rw [e] at hA; cases hA
    obtain ⟨l', h3, h4⟩ := hg.resolve_left (by omega)
    have := h2.inj h3
    subst this
    have h5 := Dpw.tareLoop_sound s.tares b m s.tares.length _ (Nat.le_refl _) a1 a2 (fun x hx => hc x (by simp [hx]))
    rw [List.take_length] at h5
    have h6 : value db (trueLits m) s.root < b / 2 ^ s.tares.length + 1 := by
      rcases Nat.lt_or_ge (value db (trueLits m) s.root) (b / 2 ^ s.tares.length + 1) with h7 | h7
      · exact h7
      · have h8 := h4 m hm h7
        have h9 := hc l.neg (by simp)
        rw [Lit.holds_neg, h8] at h9
        cases h9
    rw [h.val, Nat.div_lt_iff_lt_mul hN] at h6
    omega

/-- Choosing the tares of several watchdogs for a bound each. -/
theorem choose_tares (a : Asg) : ∀ (Ds : List (Dpw.Structure × Nat)), (∀ x ∈ Ds, ∃ us : List Nat, us.Nodup ∧ x.1.tares = us.map Lit.pos) →
    (∀ x ∈ Ds, ∀ y ∈ Ds, x.1 ≠ y.1 → ∀ t ∈ x.1.tares, t.var ∉ y.1.tares.map Lit.var) → (∀ x ∈ Ds, ∀ y ∈ Ds, x.1 = y.1 → x.2 = y.2) →
    ∃ a' : Asg, (∀ v, (∀ x ∈ Ds, v ∉ x.1.tares.map Lit.var) → a' v = a v) ∧
      ∀ x ∈ Ds, ∀ m : Asg, (∀ t ∈ x.1.tares, t.holds m = t.holds a') →
        cubeSat m (Dpw.tareLoop x.1.tares x.2 x.1.tares.length ((x.2 / 2 ^ x.1.tares.length + 1) * 2 ^ x.1.tares.length - 1)) ∧
        x.2 + Dpw.tareVal (trueLits m) x.1.tares = (x.2 / 2 ^ x.1.tares.length + 1) * 2 ^ x.1.tares.length - 1
  | [], _, _, _ => ⟨a, fun _ _ => rfl, fun _ hx => by cases hx⟩
  | x :: Ds, hus, hsep, hone => by
    obtain ⟨a1, h1, h2⟩ := choose_tares a Ds (fun y hy => hus y (List.mem_cons_of_mem _ hy))
      (fun y hy z hz => hsep y (List.mem_cons_of_mem _ hy) z (List.mem_cons_of_mem _ hz))
      (fun y hy z hz => hone y (List.mem_cons_of_mem _ hy) z (List.mem_cons_of_mem _ hz))
    by_cases hx : ∃ y ∈ Ds, y.1 = x.1
    · obtain ⟨y, hy, e⟩ := hx
      have e' : y = x := Prod.ext e (hone y (List.mem_cons_of_mem _ hy) x List.mem_cons_self e)
      subst e'
      refine ⟨a1, fun v hv => h1 v fun z hz => hv z (List.mem_cons_of_mem _ hz), fun z hz => ?_⟩
      rcases List.mem_cons.1 hz with rfl | hz
      · exact h2 _ hy
      · exact h2 z hz
    · obtain ⟨us, hnd, hu⟩ := hus x List.mem_cons_self
      obtain ⟨p1, p2, -⟩ := tare_arith x.2 x.1.tares.length
      obtain ⟨f, hf⟩ := Dpw.tareLoop_complete x.1.tares x.2 x.1.tares.length _ (Nat.le_refl _) p1 p2
      refine ⟨fun v => if v ∈ x.1.tares.map Lit.var then f (us.idxOf v) else a1 v, fun v hv => ?_, fun z hz m hm => ?_⟩
      · simp only
        rw [if_neg (hv x List.mem_cons_self)]
        exact h1 v fun y hy => hv y (List.mem_cons_of_mem _ hy)
      · rcases List.mem_cons.1 hz with rfl | hz
        · obtain ⟨g1, g2⟩ := hf m fun i t _ ht => by
            have hmem := List.mem_of_getElem? ht
            rw [hm t hmem]
            have ht' := ht
            rw [hu, List.getElem?_map] at ht'
            cases hr : us[i]? with
            | none => rw [hr] at ht'; cases ht'
            | some v =>
              rw [hr] at ht'
              have e : t = Lit.pos v := by simpa using ht'.symm
              have hidx : us.idxOf v = i := by
                obtain ⟨hi, hv'⟩ := List.getElem?_eq_some_iff.1 hr
                rw [← hv']
                exact hnd.idxOf_getElem i hi
              subst e
              rw [Lit.holds_pos]
              rw [if_pos (List.mem_map.2 ⟨_, hmem, Lit.var_pos v⟩), hidx]
          rw [List.take_length] at g2
          exact ⟨g1, g2⟩
        · refine h2 z hz m fun t ht => (hm t ht).trans (Lit.holds_congr ?_)
          refine if_neg fun hv => ?_
          exact hsep z (List.mem_cons_of_mem _ hz) x List.mem_cons_self (fun e => hx ⟨z, hz, e⟩) t ht hv

end SharedWorld
end RustSat
