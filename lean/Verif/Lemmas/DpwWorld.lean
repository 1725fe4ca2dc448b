import Verif.Lemmas.DpwMerge
import Mathlib.Data.List.Nodup
/-
The invariant of the dynamic polynomial watchdog over histories.
-/
namespace RustSat
open TotDb Card
namespace Dpw
variable {VM : Type} [ManageVars VM]

/-- A structure was built. -/
structure Built (db : Db) (s : Structure) (n : Nat) (cls : ClauseSet) (ins : List (Lit × Nat)) (own : List Nat) : Prop where
  core : ∃ out, Core db n cls (ins.map (·.1) ++ s.tares) out ∧ ∀ v, v ∈ own ↔ v ∈ out ∨ v ∈ s.tares.map Lit.var
  tares : ∃ us : List Nat, us.Nodup ∧ s.tares = us.map Lit.pos
  disj : ∀ x ∈ ins, x.1.var ∉ s.tares.map Lit.var
  rootLt : s.root < db.nodes.length
  unit : (db.node s.root).isGeneral = false
  small : 2 ^ s.tares.length ≤ wsumT (fun _ => true) (divided s.precDiv ins)
  val : ∀ T, value db T s.root = (wsumT T (divided s.precDiv ins) + tareVal T s.tares) / 2 ^ s.tares.length

/-- No structure was built yet. -/
structure Unbuilt (db : Db) (q : WeightQ) (n : Nat) (cls : ClauseSet) (ins : List (Lit × Nat)) (own : List Nat) : Prop where
  core : Core db n cls (ins.map (·.1)) own
  noOut : ∀ i k v l, ¬ OutAt db i k v l
  plain : ∀ i, (db.node i).isGeneral = false
  none : cls = []
  queue : QOK db q
  sum : ∀ f T, qsum f db T q = wsumT T (ins.map fun x => (x.1, f x.2))
  has : ∀ x ∈ ins, ∃ e ∈ q, e.1 = x.2
  from_ : ∀ e ∈ q, ∃ x ∈ ins, x.2 = e.1

/-- The weights that are not part of the structure yet. -/
structure Rest (db : Db) (s : Structure) (q : WeightQ) (ins : List (Lit × Nat)) : Prop where
  ok : QOK db q
  sum : ∀ (f : Nat → Nat) T, f 0 = 0 → qsum f db T q = wsumT T (ins.map fun x => (x.1, f (x.2 % 2 ^ (digits s.precDiv 2 - 1))))
  grow : Grow db s q (s.tares.length + 1) (fun T => wsumT T (divided s.precDiv ins))

theorem Rest.rel {a b : Db} {R : LitData → LitData → Prop} (h : DbRel R a b) (hw : a.WF) {s : Structure} {q : WeightQ} {ins : List (Lit × Nat)}
    (hr : Rest a s q ins) : Rest b s q ins :=
  ⟨hr.ok.rel h hw, fun f T h0 => (qsum_rel h hw f T q).trans (hr.sum f T h0), hr.grow.rel h hw⟩

/-- The precision was increased, but the structure was not extended yet. -/
def Pending (e : Dpw) : Prop := e.weightQueue ≠ [] ∧ 1 ≤ e.precDiv ∧ e.precDiv ≤ e.weightQueue.maxWeight

/-- The state after a structure was built. -/
structure After (e : Dpw) (s : Structure) (n : Nat) (cls : ClauseSet) (ins : List (Lit × Nat)) (own : List Nat) : Prop where
  built : Built e.db s n cls ins own
  loc : LCore e.db cls
  pow : s.precDiv ≤ 1 ∨ isPow2 s.precDiv = true
  queue : ∀ x ∈ e.weightQueue, 0 < x.1 ∧ x.1 < 2 ^ (digits s.precDiv 2 - 1)
  prec : s.precDiv = e.precDiv ∨ e.Pending
  rest : e.weightQueue ≠ [] → Rest e.db s e.weightQueue ins
  full : e.weightQueue = [] → ∀ x ∈ ins, x.2 % 2 ^ (digits s.precDiv 2 - 1) = 0

/-- The invariant. -/
structure Inv (e : Dpw) (n : Nat) (cls : ClauseSet) (ins : List (Lit × Nat)) (own : List Nat) : Prop where
  lits : e.inLits = ins
  total : e.weightSum = wsumT (fun _ => true) ins
  pow : e.precDiv ≤ 1 ∨ isPow2 e.precDiv = true
  max : e.precDiv ≤ 1 ∨ ∃ x ∈ ins, e.precDiv ≤ x.2
  pos : ∀ x ∈ ins, 0 < x.2
  two : ∀ s, e.structure_ = some s → 2 ≤ ins.length
  unbuilt : e.structure_ = none → Unbuilt e.db e.weightQueue n cls ins own
  after : ∀ s, e.structure_ = some s → e.After s n cls ins own

theorem wsumT_zero {f : Nat → Nat} {ins : List (Lit × Nat)} (h : wsumT (fun _ => true) (ins.map fun x => (x.1, f x.2)) = 0) :
    ∀ x ∈ ins, f x.2 = 0 := by
  intro x hx
  have := wsumT_mem_le (T := fun _ => true) (l := ins.map fun x => (x.1, f x.2)) (x := (x.1, f x.2)) (List.mem_map.2 ⟨x, hx, rfl⟩) rfl
  simp only at this
  omega

/-- The structure has the precision of the encoder. -/
def Fits (e : Dpw) : Prop := ∀ s, e.structure_ = some s → s.precDiv = e.precDiv

/-- A bound is encoded. -/
def Has (e : Dpw) (cls : ClauseSet) (b : Nat) : Prop :=
  ∃ s, e.structure_ = some s ∧ s.precDiv = e.precDiv ∧ ((e.db.node s.root).maxVal ≤ b / 2 ^ s.tares.length ∨ Good e.db cls s.root (b / 2 ^ s.tares.length))

/-- All bounds with an output literal are encoded. -/
def AllGood (e : Dpw) (cls : ClauseSet) : Prop :=
  ∀ s, e.structure_ = some s → ∀ k l, RootLit e.db s.root k l → Good e.db cls s.root k

theorem divided_eq {d : Nat} (h : d ≤ 1 ∨ isPow2 d = true) (ins : List (Lit × Nat)) :
    divided d ins = ins.map fun x => (x.1, x.2 / 2 ^ (digits d 2 - 1)) := by
  have : max d 1 = 2 ^ (digits d 2 - 1) := by
    by_cases h1 : d ≤ 1
    · rcases (by omega : d = 0 ∨ d = 1) with rfl | rfl <;> decide
    · rcases h with h | h
      · exact absurd h h1
      · rw [← pow2_of_isPow2 h (by omega)]; omega
  unfold divided
  rw [this]

theorem divided_one {d : Nat} (h : d ≤ 1) (ins : List (Lit × Nat)) : divided d ins = ins := by
  unfold divided
  rw [show max d 1 = 1 by omega]
  simp

theorem divided_le (T : Lit → Bool) (d : Nat) (ins : List (Lit × Nat)) : wsumT T (divided d ins) ≤ wsumT T ins := by
  unfold divided wsumT
  induction ins with
  | nil => simp
  | cons x ins ih =>
    simp only [List.map_cons, List.sum_cons] at ih ⊢
    have : x.2 / max d 1 ≤ x.2 := Nat.div_le_self _ _
    simp only [List.map_map] at ih ⊢
    cases T x.1 <;> simp <;> omega

theorem divided_half (T : Lit → Bool) {d : Nat} (hd : 2 ≤ d) (ins : List (Lit × Nat)) : 2 * wsumT T (divided d ins) ≤ wsumT T ins := by
  unfold divided wsumT
  induction ins with
  | nil => simp
  | cons x ins ih =>
    simp only [List.map_cons, List.sum_cons] at ih ⊢
    have : 2 * (x.2 / max d 1) ≤ x.2 := by
      calc 2 * (x.2 / max d 1) ≤ max d 1 * (x.2 / max d 1) := Nat.mul_le_mul_right _ (by omega)
        _ ≤ x.2 := Nat.mul_div_le _ _
    simp only [List.map_map] at ih ⊢
    cases T x.1 <;> simp <;> omega

theorem Built.rel {db db' : Db} {s : Structure} {n n' : Nat} {cls cls' : ClauseSet} {ins : List (Lit × Nat)} {own own' : List Nat}
    (h : Built db s n cls ins own) {R : LitData → LitData → Prop} (hr : DbRel R db db')
    (hc : ∀ out, Core db n cls (ins.map (·.1) ++ s.tares) out → (∀ v, v ∈ own ↔ v ∈ out ∨ v ∈ s.tares.map Lit.var) →
      ∃ out', Core db' n' cls' (ins.map (·.1) ++ s.tares) out' ∧ ∀ v, v ∈ own' ↔ v ∈ out' ∨ v ∈ s.tares.map Lit.var) :
    Built db' s n' cls' ins own' := by
  obtain ⟨⟨out, c1, c2⟩, h2, h0, h3, h4, h5, h6⟩ := h
  refine ⟨hc out c1 c2, h2, h0, by rw [hr.len]; exact h3, by rw [(hr.node _).isGeneral]; exact h4, h5, fun T => ?_⟩
  rw [hr.value c1.wf]; exact h6 T

theorem Built.step {st st' : St VM} {s : Structure} {ins : List (Lit × Nat)} {own : List Nat}
    (h : Built st.db s (ManageVars.nUsed st.vm) st.cls ins own) (hs : Step st st') :
    Built st'.db s (ManageVars.nUsed st'.vm) st'.cls ins (own ++ CardWorld.handedOut st.vm st'.vm) := by
  refine h.rel hs.ref fun out c1 c2 => ⟨_, c1.step hs, fun v => ?_⟩
  unfold CardWorld.handedOut
  simp only [List.mem_append, c2]
  constructor
  · rintro ((h | h) | h)
    · exact Or.inl (Or.inl h)
    · exact Or.inr h
    · exact Or.inl (Or.inr h)
  · rintro ((h | h) | h)
    · exact Or.inl (Or.inl h)
    · exact Or.inr h
    · exact Or.inl (Or.inr h)

theorem reset_keep (sem : Semantics) (x y : LitData) (h : LitReset sem x y) : LitKeep x y := by
  intro l s hx
  rw [h]
  exact (removeSemantics_rel sem x).1 l s hx

theorem Inv.reset {e : Dpw} {n : Nat} {cls : ClauseSet} {ins : List (Lit × Nat)} {own : List Nat} (h : e.Inv n cls ins own) :
    Inv { e with db := e.db.resetEncoded .if_ } n cls ins own := by
  have hr := resetEncoded_rel e.db .if_
  refine ⟨h.lits, h.total, h.pow, h.max, h.pos, h.two, fun hn => ?_, fun s hs => ?_⟩
  · have hu := h.unbuilt hn
    exact ⟨hu.core.reset .if_, fun i k v l ho => hu.noOut i k v l ((reset_outAt _ _).1 ho), fun i => by rw [(hr.node _).isGeneral]; exact hu.plain i,
      hu.none, hu.queue.rel hr hu.core.wf, fun f T => (qsum_rel hr hu.core.wf f T _).trans (hu.sum f T), hu.has, hu.from_⟩
  · have hb := h.after s hs
    have hw : e.db.WF := by obtain ⟨_, c, _⟩ := hb.built.core; exact c.wf
    exact ⟨hb.built.rel hr fun out c1 c2 => ⟨out, c1.reset .if_, c2⟩, hb.loc.reset, hb.pow, hb.queue, hb.prec, fun hq => (hb.rest hq).rel hr hw, hb.full⟩

theorem Inv.wf {e : Dpw} {n : Nat} {cls : ClauseSet} {ins : List (Lit × Nat)} {own : List Nat} (h : e.Inv n cls ins own) : e.db.WF := by
  cases hs : e.structure_ with
  | none => exact (h.unbuilt hs).core.wf
  | some s => obtain ⟨_, c, _⟩ := (h.after s hs).built.core; exact c.wf

theorem Has.rel {e e' : Dpw} {cls new : ClauseSet} {b : Nat} (h : e.Has cls b) (hs : e'.structure_ = e.structure_) (hp : e'.precDiv = e.precDiv) {R : LitData → LitData → Prop}
    (hR : ∀ x y, R x y → LitKeep x y) (hr : DbRel R e.db e'.db) (hw : e.db.WF) : e'.Has (cls ++ new) b := by
  obtain ⟨s, h1, h0, h2⟩ := h
  refine ⟨s, hs.trans h1, h0.trans hp.symm, ?_⟩
  rcases h2 with h2 | h2
  · left; rw [(hr.node _).maxVal]; exact h2
  · exact Or.inr (h2.rel hR hr hw)

theorem Inv.more {e : Dpw} {n n' : Nat} {cls : ClauseSet} {ins : List (Lit × Nat)} {own : List Nat} (h : e.Inv n cls ins own)
    (hn : n ≤ n') : e.Inv n' cls ins own := by
  refine ⟨h.lits, h.total, h.pow, h.max, h.pos, h.two, fun hs => ?_, fun s hs => ?_⟩
  · have hu := h.unbuilt hs
    exact ⟨hu.core.more hn, hu.noOut, hu.plain, hu.none, hu.queue, hu.sum, hu.has, hu.from_⟩
  · obtain ⟨⟨⟨out, c1, c2⟩, h2, h0, h3, h4, h5, h6⟩, h7, h8, h9, h10, h11, h12⟩ := h.after s hs
    exact ⟨⟨⟨out, c1.more hn, c2⟩, h2, h0, h3, h4, h5, h6⟩, h7, h8, h9, h10, h11, h12⟩

/-- Building the structure if necessary. -/
theorem Inv.build [LawfulVM VM] {e : Dpw} {vm : VM} {cls : ClauseSet} {ins : List (Lit × Nat)} {own : List Nat}
    (h : e.Inv (ManageVars.nUsed vm) cls ins own) (h2 : 2 ≤ ins.length) :
    ∃ e' s vm', e.build vm = some (e', s, vm') ∧ e'.structure_ = some s ∧ ManageVars.nUsed vm ≤ ManageVars.nUsed vm' ∧
      e'.Inv (ManageVars.nUsed vm') cls ins (own ++ CardWorld.handedOut vm vm') ∧ e'.nVars = e.nVars ∧
      e'.nClauses = e.nClauses ∧ e'.weightSum = e.weightSum ∧ e'.precDiv = e.precDiv ∧ e'.inLits = e.inLits ∧
      (∀ b, e.Has cls b → e'.Has cls b) ∧ (e.AllGood cls → e'.AllGood cls) ∧ (e.Fits → e'.Fits) := by
  unfold Dpw.build
  cases hs : e.structure_ with
  | some s =>
    refine ⟨e, s, vm, rfl, hs, Nat.le_refl _, ?_, rfl, rfl, rfl, rfl, rfl, fun _ h => h, fun h => h, fun h => h⟩
    have : own ++ CardWorld.handedOut vm vm = own := by simp [CardWorld.handedOut]
    rw [this]; exact h
  | none =>
    have hu := h.unbuilt hs
    have hmax : ∃ x ∈ e.weightQueue, e.precDiv ≤ x.1 := by
      rcases h.max with h1 | ⟨x, hx, h1⟩
      · obtain ⟨x, hx⟩ := List.exists_mem_of_length_pos (l := ins) (by omega)
        obtain ⟨y, hy, e1⟩ := hu.has x hx
        have := h.pos x hx
        exact ⟨y, hy, by omega⟩
      · obtain ⟨y, hy, e1⟩ := hu.has x hx
        exact ⟨y, hy, by omega⟩
    obtain ⟨s, q', db', vm', e1, w1, x1, o1, l1, p1, r1, g1, t1, n1, m1, v1, y1, z1, -, -, k1⟩ :=
      buildStructure_spec true hu.core.wf hu.queue h.pow hmax vm (Sep.nil hu.plain) (by simp)
    simp only [if_true, Nat.add_sub_cancel] at m1 v1 k1
    rw [e1]
    simp only
    have hdiv := divided_eq h.pow ins
    have hle : ManageVars.nUsed vm ≤ ManageVars.nUsed vm' := by omega
    have htv : ∀ v, v ∈ s.tares.map Lit.var ↔ ManageVars.nUsed vm ≤ v ∧ v < ManageVars.nUsed vm' := by
      intro v
      rw [t1]
      simp only [List.mem_map, List.mem_range]
      constructor
      · rintro ⟨_, ⟨i, hi, rfl⟩, rfl⟩
        rw [Lit.var_pos]; omega
      · rintro ⟨h3, h4⟩
        exact ⟨_, ⟨v - ManageVars.nUsed vm, by omega, rfl⟩, by rw [Lit.var_pos]; omega⟩
    have hcore : Core db' (ManageVars.nUsed vm') cls (ins.map (·.1) ++ s.tares) own := by
      refine ((hu.core.more hle).add s.tares fun l hl => ?_).ext x1 w1 fun l hl => by simp [hl]
      have := (htv l.var).1 (List.mem_map.2 ⟨l, hl, rfl⟩)
      refine ⟨this.2, fun ho => ?_⟩
      have := hu.core.ownLt _ ho
      omega
    refine ⟨_, s, vm', rfl, rfl, hle, ⟨h.lits, h.total, h.pow, h.max, h.pos, fun _ _ => h2, fun hn => (by cases hn), fun s' hs' => ?_⟩, rfl, rfl, rfl, rfl, rfl,
      fun b hb => ?_, fun _ s' hs' k l hl => ?_, fun _ s' hs' => by cases hs'; exact p1⟩
    · cases hs'
      refine ⟨⟨⟨own, hcore, fun v => ?_⟩, ⟨(List.range s.tares.length).map fun i => ManageVars.nUsed vm + i, ?_, ?_⟩, fun x hx hv => ?_, r1, g1, ?_, fun T => ?_⟩,
        ?_, by rw [p1]; exact h.pow, fun x hx => ⟨o1.pos x hx, by rw [p1]; exact l1 x hx⟩, Or.inl p1, fun hq => ⟨o1, fun f T h0 => ?_, ?_⟩, fun hq x hx => ?_⟩
      · rw [List.mem_append, mem_handedOut, htv]
      · exact List.Nodup.map (fun a b h => by simpa using h) List.nodup_range
      · conv_lhs => rw [t1]
        simp [Function.comp_def]
      · have h5 := (htv _).1 hv
        have h6 := hu.core.insLt x.1 (List.mem_map.2 ⟨x, hx, rfl⟩)
        omega
      · obtain ⟨y, hy, h3⟩ : ∃ y ∈ e.weightQueue, 2 ^ s.tares.length ≤ y.1 / 2 ^ (digits e.precDiv 2 - 1) := by
          obtain ⟨z, hz, -⟩ := hmax
          cases hwq : e.weightQueue with
          | nil => rw [hwq] at hz; cases hz
          | cons y qt =>
            refine ⟨y, by simp, ?_⟩
            rw [hwq] at m1
            have hmw : WeightQ.maxWeight (y :: qt) = y.1 := rfl
            rw [hmw] at m1
            have := digits_le y.1 2 (by omega) (hu.queue.pos y (by rw [hwq]; simp))
            rw [Nat.le_div_iff_mul_le (Nat.two_pow_pos _), ← Nat.pow_add, show s.tares.length + (digits e.precDiv 2 - 1) = digits y.1 2 - 1 by omega]
            exact this
        obtain ⟨x, hx, h4⟩ := hu.from_ y hy
        rw [p1, hdiv]
        have := wsumT_mem_le (T := fun _ => true) (l := ins.map fun x => (x.1, x.2 / 2 ^ (digits e.precDiv 2 - 1)))
          (x := (x.1, x.2 / 2 ^ (digits e.precDiv 2 - 1))) (List.mem_map.2 ⟨x, hx, rfl⟩) rfl
        simp only [h4] at this
        omega
      · rw [v1 T, hu.sum, p1, hdiv]
      · have := LCore.nil hu.plain hu.noOut
        rw [← hu.none] at this
        exact this.ext hu.core.wf x1 z1.plain
      · rw [y1 f T h0, hu.sum, p1]
      · exact (k1 hq trivial).1.congr rfl fun T => by rw [hu.sum, p1, hdiv]
      · have hq : q' = [] := hq
        have h3 := y1 (fun w => w) (fun _ => true) rfl
        rw [hu.sum, hq] at h3
        rw [p1]
        exact wsumT_zero (f := fun w => w % 2 ^ (digits e.precDiv 2 - 1)) (h3.symm.trans rfl) x hx
    · obtain ⟨s', h3, -⟩ := hb
      rw [hs] at h3; cases h3
    · cases hs'
      rcases hl with ⟨h3, rfl⟩ | h3
      · refine ⟨l, Or.inl ⟨h3, rfl⟩, fun b _ hv => ?_⟩
        rw [value_leaf w1 h3] at hv
        cases hl : l.holds b with
        | true => rfl
        | false => simp [trueLits, hl] at hv
      · exact absurd (x1.outAt.1 h3) (hu.noOut _ _ _ _)

theorem maxWeight_small {e : Dpw} {n : Nat} {cls : ClauseSet} {ins : List (Lit × Nat)} {own : List Nat} (h : e.Inv n cls ins own)
    {s : Structure} (hs : e.structure_ = some s) (hp : s.precDiv = e.precDiv) :
    ¬ (¬ e.weightQueue.isEmpty = true ∧ e.precDiv ≤ e.weightQueue.maxWeight) := by
  have hq := (h.after s hs).queue
  rw [hp] at hq
  rintro ⟨h1, h2⟩
  have hp := precision_pow h.pow
  cases hwq : e.weightQueue with
  | nil => rw [hwq] at h1; exact h1 rfl
  | cons x q =>
    rw [hwq] at h2 hq
    have h3 := hq x (by simp)
    have := (hp x.1 h3.1).1 h2
    omega

theorem digits_two_pow (k : Nat) : digits (2 ^ k) 2 - 1 = k := by
  have h1 := digits_le (2 ^ k) 2 (by omega) (Nat.two_pow_pos k)
  have h2 := digits_lt (2 ^ k) 2 (by omega)
  have h3 := (Nat.pow_le_pow_iff_right (by omega : 1 < 2)).1 h1
  have h4 := (Nat.pow_lt_pow_iff_right (by omega : 1 < 2)).1 h2
  omega

theorem prec_eq {d : Nat} (h : d ≤ 1 ∨ isPow2 d = true) (h0 : 0 < d) : d = 2 ^ (digits d 2 - 1) := by
  rcases h with h | h
  · have : d = 1 := by omega
    subst this; decide
  · exact pow2_of_isPow2 h h0

/-- The parts of a weight. -/
theorem weight_split (w : Nat) {p P : Nat} (h : p ≤ P) : w / 2 ^ p = w % 2 ^ P / 2 ^ p + 2 ^ (P - p) * (w / 2 ^ P) := by
  have h1 := Nat.div_add_mod w (2 ^ P)
  have h2 : 2 ^ P = 2 ^ p * 2 ^ (P - p) := by rw [← Nat.pow_add]; congr 1; omega
  have h3 : w = 2 ^ p * (2 ^ (P - p) * (w / 2 ^ P)) + w % 2 ^ P := by rw [← Nat.mul_assoc, ← h2]; exact h1.symm
  conv_lhs => rw [h3]
  rw [Nat.mul_add_div (Nat.two_pow_pos p)]
  omega

theorem wsumT_split (T : Lit → Bool) {p P : Nat} (h : p ≤ P) (ins : List (Lit × Nat)) :
    wsumT T (ins.map fun x => (x.1, x.2 / 2 ^ p)) =
      wsumT T (ins.map fun x => (x.1, x.2 % 2 ^ P / 2 ^ p)) + 2 ^ (P - p) * wsumT T (ins.map fun x => (x.1, x.2 / 2 ^ P)) := by
  induction ins with
  | nil => simp [wsumT]
  | cons x ins ih =>
    have h1 := weight_split x.2 h
    simp only [wsumT, List.map_cons, List.sum_cons] at ih ⊢
    rw [ih, Nat.mul_add]
    cases T x.1
    · simp
    · simp only [if_true]; omega

theorem pow_shift (τ β b R t X : Nat) : ((R + t) / 2 ^ τ + X) / 2 ^ (β + b) = (R + t + 2 ^ τ * X) / 2 ^ (τ + β + b) := by
  rw [Nat.add_assoc τ, Nat.pow_add 2 τ, ← Nat.div_div_eq_div_mul, Nat.add_mul_div_left _ _ (Nat.two_pow_pos τ)]

/-- Extending the structure after the precision was increased. -/
theorem Inv.extend [LawfulVM VM] {e : Dpw} {vm : VM} {cls : ClauseSet} {ins : List (Lit × Nat)} {own : List Nat}
    (h : e.Inv (ManageVars.nUsed vm) cls ins own) {s : Structure} (hs : e.structure_ = some s) (hp : e.Pending) :
    ∃ e' s' vm' new, e.buildOrExtend vm cls = some (e', s', vm', cls ++ new) ∧ e'.structure_ = some s' ∧
      ManageVars.nUsed vm ≤ ManageVars.nUsed vm' ∧
      e'.Inv (ManageVars.nUsed vm') (cls ++ new) ins (own ++ CardWorld.handedOut vm vm') ∧ e'.nVars = e.nVars ∧
      e'.nClauses = e.nClauses ∧ e'.weightSum = e.weightSum ∧ e'.precDiv = e.precDiv ∧ e'.inLits = e.inLits ∧ s'.precDiv = e'.precDiv := by
  have ha := h.after s hs
  obtain ⟨hq0, hp1, hp2⟩ := hp
  have hrest := ha.rest hq0
  obtain ⟨⟨out, c1, c2⟩, ⟨us, hus, htus⟩, hdisj, -, -, hsmall, hval⟩ := ha.built
  have hw := c1.wf
  unfold Dpw.buildOrExtend
  rw [hs]
  simp only
  rw [if_pos ⟨by simpa using hq0, hp2⟩]
  obtain ⟨⟨mw, mc⟩, qt, hwq⟩ := List.exists_cons_of_ne_nil hq0
  have hmw : e.weightQueue.maxWeight = mw := by rw [hwq]; rfl
  have hmem : (mw, mc) ∈ e.weightQueue := by rw [hwq]; simp
  obtain ⟨top, q', db1, vm1, e1, w1, x1, o1, l1, p1, r1, g1, t1, n1, m1, v1, y1, z1, zq1, zr1, k1⟩ :=
    buildStructure_spec false hw hrest.ok h.pow ⟨_, hmem, by rw [hmw] at hp2; exact hp2⟩ vm hrest.grow.sep hrest.grow.avoid
  simp only [if_neg (by decide : ¬ (false = true)), Nat.add_zero] at m1 v1 k1
  rw [e1]
  simp only
  -- the powers
  have hP : s.precDiv = 2 ^ (digits s.precDiv 2 - 1) := by
    refine prec_eq ha.pow (Nat.pos_of_ne_zero fun h0 => ?_)
    have := ha.queue _ hmem
    rw [h0] at this
    simp [digits] at this
    omega
  have hpe : e.precDiv = 2 ^ (digits e.precDiv 2 - 1) := prec_eq h.pow hp1
  have hdivP := divided_eq ha.pow ins
  have hdivp := divided_eq h.pow ins
  generalize hPP : digits s.precDiv 2 - 1 = P at hP hdivP
  generalize hpp : digits e.precDiv 2 - 1 = p at hpe hdivp m1 v1 k1 l1 y1
  generalize hτ : top.tares.length = τ at m1 v1 k1 n1
  have hmwP := (ha.queue _ hmem)
  simp only [hPP] at hmwP
  have hpm : 2 ^ p ≤ mw := by rw [← hpe, ← hmw]; exact hp2
  rw [hmw] at m1
  have hd1 := digits_le mw 2 (by omega) hmwP.1
  have hd2 := digits_lt mw 2 (by omega)
  have hτ1 : 1 ≤ τ := by
    have := (Nat.pow_lt_pow_iff_right (by omega : 1 < 2)).1 (Nat.lt_of_le_of_lt hpm hd2)
    omega
  have hτP : p + τ ≤ P := by
    have := (Nat.pow_lt_pow_iff_right (by omega : 1 < 2)).1 (Nat.lt_of_le_of_lt hd1 hmwP.2)
    omega
  obtain ⟨β, hβ⟩ : ∃ β, P = p + τ + β := ⟨P - (p + τ), by omega⟩
  have hβd : digits (s.precDiv / (top.precDiv * 2 ^ top.tares.length)) 2 - 1 = β := by
    rw [hP, p1, hpe, hτ, hβ, ← Nat.pow_add, Nat.pow_add 2 (p + τ), Nat.mul_div_cancel_left _ (Nat.two_pow_pos _), digits_two_pow]
  have hsum : ∀ T, wsumT T (divided e.precDiv ins) = qsum (fun x => x / 2 ^ p) e.db T e.weightQueue + 2 ^ (τ + β) * wsumT T (divided s.precDiv ins) := by
    intro T
    rw [hrest.sum (fun x => x / 2 ^ p) T (Nat.zero_div _), hPP, hdivp, hdivP, wsumT_split T (by omega : p ≤ P), show P - p = τ + β by omega]
  -- variables
  have htv : ∀ v, v ∈ top.tares.map Lit.var ↔ ManageVars.nUsed vm ≤ v ∧ v < ManageVars.nUsed vm1 := by
    intro v
    rw [t1, hτ]
    simp only [List.mem_map, List.mem_range]
    constructor
    · rintro ⟨_, ⟨i, hi, rfl⟩, rfl⟩
      rw [Lit.var_pos]; omega
    · rintro ⟨h3, h4⟩
      exact ⟨_, ⟨v - ManageVars.nUsed vm, by omega, rfl⟩, by rw [Lit.var_pos]; omega⟩
  have hcore : Core db1 (ManageVars.nUsed vm1) cls ((ins.map (·.1) ++ s.tares) ++ top.tares) out := by
    refine ((c1.more (by omega)).add top.tares fun l hl => ?_).ext x1 w1 fun l hl => by simp [hl]
    have := (htv l.var).1 (List.mem_map.2 ⟨l, hl, rfl⟩)
    refine ⟨this.2, fun ho => ?_⟩
    have := c1.ownLt _ ho
    omega
  have hloc := ha.loc.ext hw x1 z1.plain
  obtain ⟨s', st, f1, f2, f3, f4, f5, f6, f7, f8, ⟨new, f9⟩, f10, f11, f12⟩ := mergeStructures_spec hloc hcore
    (hrest.grow.ext x1 hw z1) (by rw [p1]; omega) r1 zr1 (fun t ht => by simp [ht]) hβd
  simp only [hτ] at f12
  have hlen : s'.tares.length = τ + β + s.tares.length := by rw [f2]; simp [hτ, Nat.add_assoc]
  have hbl : ∀ t ∈ s.tares, t.var < ManageVars.nUsed vm := fun t ht => c1.insLt t (by simp [ht])
  have hown : ∀ v, v ∈ own ++ CardWorld.handedOut vm st.vm ↔
      v ∈ out ++ List.range' (ManageVars.nUsed vm1 + β) (ManageVars.nUsed st.vm - (ManageVars.nUsed vm1 + β)) ∨ v ∈ s'.tares.map Lit.var := by
    intro v
    rw [List.mem_append, mem_handedOut, c2, List.mem_append, List.mem_range'_1, f2, List.map_append, List.map_append, List.mem_append, List.mem_append, htv]
    have hx : v ∈ ((List.range β).map fun i => Lit.pos (ManageVars.nUsed vm1 + i)).map Lit.var ↔ ManageVars.nUsed vm1 ≤ v ∧ v < ManageVars.nUsed vm1 + β := by
      simp only [List.mem_map, List.mem_range]
      constructor
      · rintro ⟨_, ⟨i, hi, rfl⟩, rfl⟩
        rw [Lit.var_pos]; omega
      · rintro ⟨h3, h4⟩
        exact ⟨_, ⟨v - ManageVars.nUsed vm1, by omega, rfl⟩, by rw [Lit.var_pos]; omega⟩
    rw [hx]
    constructor
    · rintro ((h1 | h1) | h1)
      · exact Or.inl (Or.inl h1)
      · exact Or.inr (Or.inr h1)
      · by_cases h2 : v < ManageVars.nUsed vm1
        · exact Or.inr (Or.inl (Or.inl ⟨h1.1, h2⟩))
        · by_cases h3 : v < ManageVars.nUsed vm1 + β
          · exact Or.inr (Or.inl (Or.inr ⟨by omega, h3⟩))
          · exact Or.inl (Or.inr ⟨by omega, by omega⟩)
    · rintro ((h1 | h1) | ((h1 | h1) | h1))
      · exact Or.inl (Or.inl h1)
      · exact Or.inr ⟨by omega, by omega⟩
      · exact Or.inr ⟨by omega, by omega⟩
      · exact Or.inr ⟨by omega, by omega⟩
      · exact Or.inl (Or.inr h1)
  have hmem' : ∀ l, l ∈ (ins.map (·.1) ++ s.tares ++ top.tares) ++ (List.range β).map (fun i => Lit.pos (ManageVars.nUsed vm1 + i)) ↔
      l ∈ ins.map (·.1) ++ s'.tares := by
    intro l
    rw [f2]
    simp only [List.mem_append]
    constructor
    · rintro (((h1 | h1) | h1) | h1)
      · exact Or.inl h1
      · exact Or.inr (Or.inr h1)
      · exact Or.inr (Or.inl (Or.inl h1))
      · exact Or.inr (Or.inl (Or.inr h1))
    · rintro (h1 | ((h1 | h1) | h1))
      · exact Or.inl (Or.inl (Or.inl h1))
      · exact Or.inl (Or.inr h1)
      · exact Or.inr h1
      · exact Or.inl (Or.inl (Or.inr h1))
  have hcore' : Core st.db (ManageVars.nUsed st.vm) st.cls (ins.map (·.1) ++ s'.tares)
      (out ++ List.range' (ManageVars.nUsed vm1 + β) (ManageVars.nUsed st.vm - (ManageVars.nUsed vm1 + β))) := by
    have h5 := f5.core f4 f7
    exact ⟨h5.wf, h5.aux, fun j l hl => (hmem' l).1 (h5.leafIn j l hl), h5.outOwn, h5.ownLt, fun l hl => h5.insLt l ((hmem' l).2 hl),
      fun l hl => h5.disj l ((hmem' l).2 hl), h5.soundIf, h5.soundOnly, h5.strict, h5.vars⟩
  have hqf : ∀ y ∈ q', ∀ c ∈ y.2, FullCon st.db c ∧ ∀ T, conVal st.db T c = conVal db1 T c := fun y hy c hc =>
    f11 c (o1.con y hy c hc) (zq1 y hy c hc)
  have hvle : ManageVars.nUsed vm ≤ ManageVars.nUsed st.vm := by omega
  refine ⟨{ e with structure_ := some s', weightQueue := q', db := st.db }, s', st.vm, new, by rw [f1, ← f9], rfl, hvle, ⟨h.lits, h.total, h.pow, h.max, h.pos, fun _ _ => h.two s hs, fun hn => (by cases hn), fun s'' hs' => ?_⟩,
    rfl, rfl, rfl, rfl, rfl, f3.trans p1⟩
  cases hs'
  rw [← f9]
  refine ⟨⟨⟨_, hcore', hown⟩, ?_, fun x hx hv => ?_, f8, f4.plain _, ?_, fun T => ?_⟩, f4, by rw [f3, p1]; exact h.pow,
    fun x hx => ⟨o1.pos x hx, by rw [f3, p1, hpp]; exact l1 x hx⟩, Or.inl (f3.trans p1), fun hq' => ⟨⟨o1.sorted, o1.pos, o1.ne, fun y hy c hc => ?_⟩, fun f T h0 => ?_, ?_⟩, fun hq' x hx => ?_⟩
  rotate_right
  · have hq' : q' = [] := hq'
    have h3 := y1 (fun w => w) (fun _ => true) rfl
    rw [hrest.sum (fun w => w % 2 ^ p) _ (Nat.zero_mod _), hq', hPP] at h3
    rw [f3, p1, hpp]
    have h4 := wsumT_zero (f := fun w => w % 2 ^ P % 2 ^ p) (h3.symm.trans rfl) x hx
    rwa [Nat.mod_mod_of_dvd _ (Nat.pow_dvd_pow 2 (by omega : p ≤ P))] at h4
  · -- tares
    refine ⟨(List.range τ).map (ManageVars.nUsed vm + ·) ++ (List.range β).map (ManageVars.nUsed vm1 + ·) ++ us, ?_, ?_⟩
    · have hus' : ∀ v ∈ us, v < ManageVars.nUsed vm := by
        intro v hv
        have := hbl (Lit.pos v) (by rw [htus]; exact List.mem_map.2 ⟨v, hv, rfl⟩)
        rwa [Lit.var_pos] at this
      refine List.nodup_append.2 ⟨List.nodup_append.2 ⟨List.Nodup.map (fun a b h => by simpa using h) List.nodup_range,
        List.Nodup.map (fun a b h => by simpa using h) List.nodup_range, ?_⟩, hus, ?_⟩
      · intro a ha b hb hab
        simp only [List.mem_map, List.mem_range] at ha hb
        obtain ⟨i, hi, rfl⟩ := ha
        obtain ⟨j, hj, rfl⟩ := hb
        omega
      · intro a ha b hb hab
        have := hus' b hb
        simp only [List.mem_append, List.mem_map, List.mem_range] at ha
        rcases ha with ⟨i, hi, rfl⟩ | ⟨i, hi, rfl⟩ <;> omega
    · rw [f2, htus]
      conv_lhs => rw [t1, hτ]
      simp [Function.comp_def]
  · have h5 := c1.insLt x.1 (by simp; exact Or.inl ⟨_, hx⟩)
    have h6 := hdisj x hx
    rw [f2, List.map_append, List.map_append, List.mem_append, List.mem_append, htv] at hv
    rcases hv with (h7 | h7) | h7
    · omega
    · simp only [List.mem_map, List.mem_range] at h7
      obtain ⟨_, ⟨i, hi, rfl⟩, h8⟩ := h7
      rw [Lit.var_pos] at h8; omega
    · exact h6 h7
  · rw [hlen, f3, p1, hsum, Nat.pow_add]
    have := Nat.mul_le_mul_left (2 ^ (τ + β)) hsmall
    omega
  · rw [f10, v1, f3, p1, hsum, hlen, f2, tareVal_append, tareVal_append]
    have h5 : ∀ Y, Y / 2 ^ (τ - 1) / 2 = Y / 2 ^ τ := by
      intro Y
      rw [Nat.div_div_eq_div_mul, ← Nat.pow_succ, show (τ - 1).succ = τ by omega]
    rw [h5, pow_shift]
    congr 1
    simp only [List.length_append, List.length_map, List.length_range, hτ]
    rw [Nat.pow_add]
    ring
  · exact ⟨(hqf y hy c hc).1, by rw [(hqf y hy c hc).2]; exact (o1.full y hy c hc).2⟩
  · have h5 : qsum f st.db T q' = qsum f db1 T q' := by
      unfold qsum csum
      congr 1
      apply List.map_congr_left
      intro y hy
      congr 2
      apply List.map_congr_left
      intro c hc
      exact (hqf y hy c hc).2 T
    show qsum f st.db T q' = _
    rw [h5, y1 f T h0, hrest.sum _ T (by simpa using h0), hPP, f3, p1, hpp]
    have h6 : ∀ w, w % 2 ^ P % 2 ^ p = w % 2 ^ p := fun w => Nat.mod_mod_of_dvd w (Nat.pow_dvd_pow 2 (by omega))
    simp only [h6]
  · exact (f12 q' _ e.db.nodes.length (k1 hq' trivial).1 hrest.grow.sep.lt (k1 hq' trivial).2 (fun y hy c hc => (o1.con y hy c hc).1.id)).congr rfl fun T => by rw [f3, p1, hsum]

/-- Building or extending the structure. -/
theorem Inv.buildOrExtend [LawfulVM VM] {e : Dpw} {vm : VM} {cls : ClauseSet} {ins : List (Lit × Nat)} {own : List Nat}
    (h : e.Inv (ManageVars.nUsed vm) cls ins own) (h2 : 2 ≤ ins.length) :
    ∃ e' s vm' new, e.buildOrExtend vm cls = some (e', s, vm', cls ++ new) ∧ e'.structure_ = some s ∧ ManageVars.nUsed vm ≤ ManageVars.nUsed vm' ∧
      e'.Inv (ManageVars.nUsed vm') (cls ++ new) ins (own ++ CardWorld.handedOut vm vm') ∧ e'.nVars = e.nVars ∧
      e'.nClauses = e.nClauses ∧ e'.weightSum = e.weightSum ∧ e'.precDiv = e.precDiv ∧ e'.inLits = e.inLits ∧
      (∀ b, e.Has cls b → e'.Has (cls ++ new) b) ∧ (e.Fits → e.AllGood cls → e'.AllGood (cls ++ new)) ∧ s.precDiv = e'.precDiv := by
  by_cases hf : e.Fits
  · obtain ⟨e1, s, vm1, b1, b2, b3, b4, b5, b6, b7, b8, b8', b9, b10, b11⟩ := h.build (vm := vm) h2
    refine ⟨e1, s, vm1, [], ?_, b2, b3, by simpa using b4, b5, b6, b7, b8, b8', by simpa using b9, fun _ => by simpa using b10, b11 hf s b2⟩
    unfold Dpw.buildOrExtend
    cases hs : e.structure_ with
    | none => simp only; rw [b1]; simp
    | some s0 =>
      simp only
      rw [if_neg (maxWeight_small h hs (hf s0 hs))]
      unfold Dpw.build at b1
      rw [hs] at b1
      simp only at b1
      cases b1
      simp
  · cases hs : e.structure_ with
    | none => exact absurd (fun s hs' => by rw [hs] at hs'; cases hs') hf
    | some s =>
      have hne : s.precDiv ≠ e.precDiv := fun hx => hf fun s' hs' => by rw [hs] at hs'; cases hs'; exact hx
      have hpd := (h.after s hs).prec.resolve_left hne
      obtain ⟨e1, s1, vm1, new, b1, b2, b3, b4, b5, b6, b7, b8, b8', b9⟩ := h.extend hs hpd
      refine ⟨e1, s1, vm1, new, b1, b2, b3, b4, b5, b6, b7, b8, b8', fun b hb => ?_, fun hf' => absurd hf' hf, b9⟩
      obtain ⟨s', h3, h4, -⟩ := hb
      rw [hs] at h3; cases h3
      exact absurd h4 hne

/-- `encode_ub_change`. -/
theorem Inv.encodeUbChange [LawfulVM VM] {e : Dpw} {vm : VM} {cls : ClauseSet} {ins : List (Lit × Nat)} {own : List Nat}
    (h : e.Inv (ManageVars.nUsed vm) cls ins own) (r : URange) :
    ∃ e' vm' new, e.encodeUbChange r vm cls = some (e', vm', cls ++ new) ∧
      e'.Inv (ManageVars.nUsed vm') (cls ++ new) ins (own ++ CardWorld.handedOut vm vm') ∧
      e'.nVars = e.nVars + (CardWorld.handedOut vm vm').length ∧ e'.nClauses = e.nClauses + new.length ∧
      ManageVars.nUsed vm ≤ ManageVars.nUsed vm' ∧ e'.precDiv = e.precDiv ∧
      (∀ b, r.contains b → b < e.weightSum → 2 ≤ ins.length → e'.Has (cls ++ new) b) ∧
      (∀ b, e.Has cls b → e'.Has (cls ++ new) b) ∧ (e.Fits → e.AllGood cls → e'.AllGood (cls ++ new)) ∧ (e.Fits → e'.Fits) := by
  unfold Dpw.encodeUbChange
  simp only
  by_cases h0 : (Pb.prepareUbRange e.weightSum r).2 ≤ (Pb.prepareUbRange e.weightSum r).1 ∨ e.inLits.length ≤ 1
  · rw [if_pos h0]
    have e0 : CardWorld.handedOut vm vm = [] := by simp [CardWorld.handedOut]
    refine ⟨e, vm, [], by simp, by simpa [e0] using h, by simp [e0], by simp, Nat.le_refl _, rfl, fun b hb hlt hl => ?_,
      fun b hb => by simpa using hb, fun _ hg => by simpa using hg, fun hf => hf⟩
    have := Gte.Inv.prepareUb_iff.2 ⟨hb, hlt⟩
    rw [h.lits] at h0
    omega
  · rw [if_neg h0]
    rw [h.lits] at h0
    obtain ⟨e1, s, vm1, new1, b1, b2, b3, b4, b5, b6, b7, b8, b8', b9, b10, b11⟩ := h.buildOrExtend (by omega)
    rw [b1]
    simp only
    have ha := b4.after s b2
    have hb := ha.built
    have hw1 := b4.wf
    obtain ⟨st, e2, s2, h3, h4⟩ := encodeOutputs_spec (VM := VM) s.root
      (rangeIncl ((Pb.prepareUbRange e.weightSum r).1 / 2 ^ s.outputPower) (((Pb.prepareUbRange e.weightSum r).2 - 1) / 2 ^ s.outputPower))
      ⟨e1.db, vm1, cls ++ new1⟩ hw1 hb.unit
    rw [e2]
    have hloc := ha.loc.step (st := ⟨e1.db, vm1, cls ++ new1⟩) (encodeOutputs_loc s.root _ _ _ hw1 hb.unit e2) s2.ref
    obtain ⟨new, hnew, hsif, -⟩ := s2.cls
    simp only at hnew
    rw [List.append_assoc] at hnew
    have hused : ManageVars.nUsed vm1 ≤ ManageVars.nUsed st.vm := s2.used
    have hbs := Built.step (st := ⟨e1.db, vm1, cls ++ new1⟩) (st' := st) hb s2
    have hown : (own ++ CardWorld.handedOut vm vm1) ++ CardWorld.handedOut vm1 st.vm = own ++ CardWorld.handedOut vm st.vm := by
      rw [List.append_assoc, AdderWorld.handedOut_append b3 hused]
    rw [hown, hnew] at hbs
    rw [hnew] at hloc
    have hkeep : ∀ x y, LitRef x y → LitKeep x y := fun _ _ => keep_of_ref
    have hc1 : SoundIf e1.db (cls ++ new1) := by obtain ⟨⟨_, c, _⟩, _⟩ := hb; exact c.soundIf
    have hw2 : st.db.WF := s2.ref.wf hw1
    have hgood : ∀ k l, HasLit st.db s.root k .if_ l → Good st.db (cls ++ (new1 ++ new)) s.root k :=
      fun k l hl => HasLit.good hw2 hl (by rw [← List.append_assoc]; exact hsif _ hc1)
    have hHas : ∀ b, e1.Has (cls ++ new1) b → ∀ e' : Dpw, e'.structure_ = some s → e'.precDiv = e1.precDiv → e'.db = st.db → e'.Has (cls ++ (new1 ++ new)) b := by
      intro b hb' e' he' hpd hdb
      rw [← List.append_assoc]
      exact hb'.rel (he'.trans b2.symm) hpd hkeep (by rw [hdb]; exact s2.ref) hw1
    refine ⟨{ e1 with db := st.db, nVars := e1.nVars + (ManageVars.nUsed st.vm - ManageVars.nUsed vm), nClauses := e1.nClauses + (st.cls.length - cls.length) }, st.vm, new1 ++ new, by simp only; rw [hnew], ⟨b8'.trans h.lits, b7.trans h.total, b4.pow, b4.max, h.pos, fun _ _ => (by omega), fun hn => ?_, fun s' hs' => ?_⟩, ?_, ?_, by omega, b8,
      fun b hb' hlt _ => ?_, fun b hb' => hHas b (b9 b hb') _ b2 rfl rfl, fun hf hg s' hs' k l hl => ?_, fun _ s' hs' => ?_⟩
    · have hn' : e1.structure_ = none := hn
      rw [b2] at hn'; cases hn'
    · have hs'' : e1.structure_ = some s' := hs'
      rw [b2] at hs''
      cases hs''
      exact ⟨hbs, hloc, ha.pow, ha.queue, ha.prec, fun hq => (ha.rest hq).rel s2.ref hw1, ha.full⟩
    · show e1.nVars + _ = _
      rw [b5, AdderWorld.handedOut_length]
    · show e1.nClauses + _ = _
      rw [b6, hnew]; simp
    · refine ⟨s, b2, b11, ?_⟩
      have hmx : (st.db.node s.root).maxVal = (e1.db.node s.root).maxVal := (s2.ref.node _).maxVal
      show (st.db.node s.root).maxVal ≤ _ ∨ Good st.db _ _ _
      rcases Nat.lt_or_ge (b / 2 ^ s.tares.length) (e1.db.node s.root).maxVal with h5 | h5
      · right
        have hr := Gte.Inv.prepareUb_iff.2 ⟨hb', hlt⟩
        obtain ⟨l, hl⟩ := h3 (b / 2 ^ s.tares.length) (mem_rangeIncl.2 ⟨Nat.div_le_div_right hr.1, Nat.div_le_div_right (by omega)⟩) h5
        exact hgood _ l hl
      · left; omega
    · have hs'' : e1.structure_ = some s' := hs'
      rw [b2] at hs''
      cases hs''
      rcases h4 k l hl with h5 | ⟨-, l', h5⟩
      · rw [← List.append_assoc]
        exact (b10 hf hg s b2 k l h5).rel hkeep s2.ref hw1
      · exact hgood k l' h5
    · have hs'' : e1.structure_ = some s' := hs'
      rw [b2] at hs''
      cases hs''
      exact b11

/-- `encode_ub`. -/
theorem Inv.encodeUb [LawfulVM VM] {e : Dpw} {vm : VM} {cls : ClauseSet} {ins : List (Lit × Nat)} {own : List Nat}
    (h : e.Inv (ManageVars.nUsed vm) cls ins own) (r : URange) :
    ∃ e' vm' new, e.encodeUb r vm cls = some (e', vm', cls ++ new) ∧
      e'.Inv (ManageVars.nUsed vm') (cls ++ new) ins (own ++ CardWorld.handedOut vm vm') ∧
      e'.nVars = e.nVars + (CardWorld.handedOut vm vm').length ∧ e'.nClauses = e.nClauses + new.length ∧
      ManageVars.nUsed vm ≤ ManageVars.nUsed vm' ∧ e'.precDiv = e.precDiv ∧
      (∀ b, r.contains b → b < e.weightSum → 2 ≤ ins.length → e'.Has (cls ++ new) b) ∧
      (∀ b, e.Has cls b → e'.Has (cls ++ new) b) ∧ (e.Fits → e.AllGood cls → e'.AllGood (cls ++ new)) ∧ (e.Fits → e'.Fits) := by
  obtain ⟨e', vm', new, h1, h2, h3, h4, h5, h6, h7, h8, h9, h10⟩ := h.reset.encodeUbChange r
  have hr := resetEncoded_rel e.db .if_
  have hw := h.wf
  refine ⟨e', vm', new, h1, h2, h3, h4, h5, h6, h7, fun b hb => h8 b ?_, fun hf hg => h9 hf fun s hs k l hl => ?_, fun hf => h10 hf⟩
  · have := hb.rel (e' := { e with db := e.db.resetEncoded .if_ }) (new := []) rfl rfl (reset_keep .if_) hr hw
    simpa using this
  · have hl' : RootLit e.db s.root k l := by
      rcases hl with ⟨h10, h11⟩ | h10
      · exact Or.inl ⟨hr.leaf.1 h10, h11⟩
      · exact Or.inr ((reset_outAt _ _).1 h10)
    have := (hg s hs k l hl').rel (new := []) (reset_keep .if_) hr hw
    simpa using this

/-- `reserve`. -/
theorem Inv.reserve [LawfulVM VM] {e : Dpw} {vm : VM} {cls : ClauseSet} {ins : List (Lit × Nat)} {own : List Nat}
    (h : e.Inv (ManageVars.nUsed vm) cls ins own) :
    ∃ e' vm', e.reserve vm = some (e', vm') ∧
      e'.Inv (ManageVars.nUsed vm') cls ins (own ++ CardWorld.handedOut vm vm') ∧ e'.nClauses = e.nClauses ∧
      ManageVars.nUsed vm ≤ ManageVars.nUsed vm' ∧ e'.precDiv = e.precDiv ∧ (∀ b, e.Has cls b → e'.Has cls b) ∧ (e.Fits → e'.Fits) := by
  unfold Dpw.reserve
  by_cases h0 : e.inLits.length ≤ 1
  · rw [if_pos h0]
    have e0 : CardWorld.handedOut vm vm = [] := by simp [CardWorld.handedOut]
    exact ⟨e, vm, rfl, by simpa [e0] using h, rfl, Nat.le_refl _, rfl, fun _ h => h, fun h => h⟩
  · rw [if_neg h0]
    rw [h.lits] at h0
    obtain ⟨e1, s, vm1, b1, b2, b3, b4, b5, b6, b7, b8, b8', b9, b10, b11⟩ := h.build (by omega)
    rw [b1]
    simp only
    have ha := b4.after s b2
    have hb := ha.built
    have hw1 := b4.wf
    obtain ⟨st, e2, s2, h3, -⟩ := reserveVars_spec (VM := VM) (s.root + 1) ⟨e1.db, vm1, cls⟩ (NodeCon.full s.root) hw1
      (by show s.root < _; omega) (Or.inr (Nat.zero_le _))
    -- the collector does not matter
    obtain ⟨st', e2', s2', h3', ha'⟩ := reserveVars_spec (VM := VM) (s.root + 1) ⟨e1.db, vm1, []⟩ (NodeCon.full s.root) hw1
      (by show s.root < _; omega) (Or.inr (Nat.zero_le _))
    rw [e2']
    simp only
    obtain ⟨new, hn1, hn2⟩ := s2'.recol cls
    have hnil : new = [] := by
      simp only at h3'
      rw [h3'] at hn1
      simpa using hn1.symm
    subst hnil
    have hused : ManageVars.nUsed vm1 ≤ ManageVars.nUsed st'.vm := s2'.used
    have hbs := Built.step (st := ⟨e1.db, vm1, cls⟩) (st' := ⟨st'.db, st'.vm, cls ++ []⟩) hb hn2
    simp only [List.append_nil] at hbs
    rw [List.append_assoc, AdderWorld.handedOut_append b3 hused] at hbs
    refine ⟨_, st'.vm, rfl, ⟨b8'.trans h.lits, b7.trans h.total, b4.pow, b4.max, h.pos, fun _ _ => (by omega), fun hn => ?_, fun s' hs' => ?_⟩, b6, by omega, b8, fun b hb' => ?_,
      fun hf s' hs' => b11 hf s' hs'⟩
    · have hn' : e1.structure_ = none := hn
      rw [b2] at hn'; cases hn'
    · have hs'' : e1.structure_ = some s' := hs'
      rw [b2] at hs''
      cases hs''
      exact ⟨hbs, ha.loc.reserve s2'.ref fun i => ha' i _ _, ha.pow, ha.queue, ha.prec, fun hq => (ha.rest hq).rel s2'.ref hw1, ha.full⟩
    · have := (b9 b hb').rel (e' := { e1 with db := st'.db }) (new := []) rfl rfl (fun _ _ => keep_of_ref) s2'.ref hw1
      simpa using this

/-! Enforcing -/

/-- The number of outputs of the root. -/
theorem Built.maxVal {db : Db} {s : Structure} {n : Nat} {cls : ClauseSet} {ins : List (Lit × Nat)} {own : List Nat}
    (h : Built db s n cls ins own) :
    (db.node s.root).maxVal = (wsumT (fun _ => true) (divided s.precDiv ins) + (2 ^ s.tares.length - 1)) / 2 ^ s.tares.length := by
  obtain ⟨⟨out, c1, c2⟩, -, -, -, -, -, h6⟩ := h
  rw [← value_all_max c1.wf, h6, tareVal_true]

/-- The cases of `enforce_ub`. -/
theorem Inv.enforceUb_cases {e : Dpw} {n : Nat} {cls : ClauseSet} {ins : List (Lit × Nat)} {own : List Nat}
    (h : e.Inv n cls ins own) (hp : e.precDiv ≤ 1 ∨ 2 ≤ ins.length) (b : Nat) :
    (wsumT (fun _ => true) (divided e.precDiv ins) ≤ b ∧ e.enforceUb b = .ok []) ∨
    (e.enforceUb b = .err .notEncoded ∧ (e.structure_ = none → 2 ≤ ins.length ∧ (b < e.weightSum ∨ 2 ≤ e.precDiv)) ∧
      ∀ s, e.structure_ = some s → s.precDiv = e.precDiv → b < e.weightSum ∧
        b / 2 ^ s.tares.length < (e.db.node s.root).maxVal ∧ ¬ ∃ l, RootLit e.db s.root (b / 2 ^ s.tares.length) l) ∨
    (∃ s l, e.structure_ = some s ∧ s.precDiv = e.precDiv ∧ RootLit e.db s.root (b / 2 ^ s.tares.length) l ∧
      b / 2 ^ s.tares.length < (e.db.node s.root).maxVal ∧ e.enforceUb b = .ok (l.neg :: tareLoop s.tares b s.tares.length ((b / 2 ^ s.tares.length + 1) * 2 ^ s.tares.length - 1))) ∨
    (∃ l w, ins = [(l, w)] ∧ e.precDiv ≤ 1 ∧ b < w ∧ e.enforceUb b = .ok [l.neg]) := by
  unfold Dpw.enforceUb
  by_cases h1 : e.weightSum ≤ b ∧ e.precDiv ≤ 1
  · rw [if_pos h1]
    refine Or.inl ⟨?_, rfl⟩
    rw [divided_one h1.2, ← h.total]; exact h1.1
  · rw [if_neg h1]
    cases hs : e.structure_ with
    | some s =>
      have ha := h.after s hs
      have hb := ha.built
      simp only
      by_cases hpd : s.precDiv = e.precDiv
      swap
      · obtain ⟨hq0, -, hq2⟩ := ha.prec.resolve_left hpd
        rw [if_pos ⟨by simpa using hq0, hq2⟩]
        exact Or.inr (Or.inl ⟨rfl, fun hn => (by cases hn), fun s' hs' hp' => by cases hs'; exact absurd hp' hpd⟩)
      rw [if_neg (maxWeight_small h hs hpd), hpd, Nat.sub_self, Nat.pow_zero, Nat.div_one]
      unfold enforceStructure Structure.outputPower
      simp only
      have hmv := hb.maxVal
      rw [hpd] at hmv
      have hN := Nat.two_pow_pos s.tares.length
      by_cases h2 : b / 2 ^ s.tares.length ≥ (e.db.node s.root).maxVal
      · rw [if_pos h2]
        refine Or.inl ⟨?_, rfl⟩
        rcases Nat.lt_or_ge b (wsumT (fun _ => true) (divided e.precDiv ins)) with h3 | h3
        · exfalso
          have h4 : (b + 2 ^ s.tares.length) / 2 ^ s.tares.length ≤
              (wsumT (fun _ => true) (divided e.precDiv ins) + (2 ^ s.tares.length - 1)) / 2 ^ s.tares.length := Nat.div_le_div_right (by omega)
          rw [Nat.add_div_right _ hN] at h4
          omega
        · exact h3
      · rw [if_neg h2]
        rcases nodeLit_spec (k := b / 2 ^ s.tares.length) hb.unit (by omega) with ⟨l, e1, h3⟩ | ⟨e1, h3⟩
        · rw [e1]
          exact Or.inr (Or.inr (Or.inl ⟨s, l, rfl, hpd, h3, by omega, rfl⟩))
        · rw [e1]
          refine Or.inr (Or.inl ⟨rfl, fun hn => (by cases hn), fun s' hs' _ => ?_⟩)
          cases hs'
          refine ⟨?_, by omega, h3⟩
          -- large bounds have no outputs
          rcases Nat.lt_or_ge b e.weightSum with h4 | h4
          · exact h4
          · exfalso
            have hp2 : 2 ≤ e.precDiv := by omega
            have h5 := divided_half (fun _ => true) hp2 ins
            rw [← h.total] at h5
            have h6 := hb.small
            rw [hpd] at h6
            apply h2
            rw [hmv]
            exact Nat.div_le_div_right (by omega)
    | none =>
      simp only
      rw [h.lits]
      cases hi : ins with
      | nil =>
        exfalso
        rw [hi] at hp
        simp only [List.length_nil] at hp
        have : e.weightSum = 0 := by rw [h.total, hi]; rfl
        omega
      | cons x rest =>
        obtain ⟨l, w⟩ := x
        simp only
        by_cases hr : 0 < rest.length
        · rw [if_pos hr]
          exact Or.inr (Or.inl ⟨rfl, fun _ => ⟨by simp; omega, by omega⟩, fun s' hs' => (by cases hs')⟩)
        · rw [if_neg hr]
          have hr0 : rest = [] := List.length_eq_zero_iff.1 (by omega)
          subst hr0
          have hp1 : e.precDiv ≤ 1 := by
            rw [hi] at hp; simp at hp; omega
          have hws : e.weightSum = w := by rw [h.total, hi]; simp [wsumT]
          have hbw : b < w := by omega
          refine Or.inr (Or.inr (Or.inr ⟨l, w, rfl, hp1, hbw, ?_⟩))
          have hle : b * min e.precDiv 1 ≤ b * 1 := Nat.mul_le_mul_left b (by omega)
          rw [if_neg (by omega)]

theorem tareLoop_self (tares : List Lit) (ub p : Nat) : tareLoop tares ub p ub = [] := by
  cases p with
  | zero => rfl
  | succ p =>
    have := Nat.two_pow_pos p
    unfold tareLoop
    rw [if_neg (by omega), if_pos rfl]

/-- Soundness of the assumptions of an output. -/
theorem Built.sound {db : Db} {s : Structure} {n : Nat} {cls : ClauseSet} {ins : List (Lit × Nat)} {own : List Nat}
    (h : Built db s n cls ins own) {b : Nat} {l : Lit} (hl : RootLit db s.root (b / 2 ^ s.tares.length) l)
    (hg : Good db cls s.root (b / 2 ^ s.tares.length)) {m : Asg} (hm : ClauseSet.sat m cls)
    (hc : cubeSat m (l.neg :: tareLoop s.tares b s.tares.length ((b / 2 ^ s.tares.length + 1) * 2 ^ s.tares.length - 1))) :
    wsumT (trueLits m) (divided s.precDiv ins) ≤ b := by
  obtain ⟨l', h1, h2⟩ := hg
  have := hl.inj h1
  subst this
  have hN := Nat.two_pow_pos s.tares.length
  have hmod := Nat.div_add_mod b (2 ^ s.tares.length)
  have hlt := Nat.mod_lt b hN
  have hmul : (b / 2 ^ s.tares.length + 1) * 2 ^ s.tares.length = 2 ^ s.tares.length * (b / 2 ^ s.tares.length) + 2 ^ s.tares.length := by
    rw [Nat.add_mul, Nat.one_mul, Nat.mul_comm]
  have h3 := tareLoop_sound s.tares b m s.tares.length ((b / 2 ^ s.tares.length + 1) * 2 ^ s.tares.length - 1) (Nat.le_refl _)
    (by omega) (by omega) (fun x hx => hc x (by simp [hx]))
  rw [List.take_length] at h3
  have h4 : value db (trueLits m) s.root < b / 2 ^ s.tares.length + 1 := by
    rcases Nat.lt_or_ge (value db (trueLits m) s.root) (b / 2 ^ s.tares.length + 1) with h5 | h5
    · exact h5
    · have h6 := h2 m hm h5
      have h7 := hc l.neg (by simp)
      rw [Lit.holds_neg, h6] at h7
      cases h7
  rw [h.val, Nat.div_lt_iff_lt_mul hN] at h4
  omega

/-- Choosing the tares for a bound. -/
theorem Built.choose {db : Db} {s : Structure} {n : Nat} {cls : ClauseSet} {ins : List (Lit × Nat)} {own : List Nat}
    (h : Built db s n cls ins own) {b : Nat} {a : Asg} (ha : wsumT (trueLits a) (divided s.precDiv ins) ≤ b) :
    ∃ m, (∀ v, v ∉ own → m v = a v) ∧ ClauseSet.sat m cls ∧ Strict db m ∧
      value db (trueLits m) s.root ≤ b / 2 ^ s.tares.length ∧
      wsumT (trueLits a) (divided s.precDiv ins) / 2 ^ s.tares.length ≤ value db (trueLits m) s.root ∧
      cubeSat m (tareLoop s.tares b s.tares.length ((b / 2 ^ s.tares.length + 1) * 2 ^ s.tares.length - 1)) := by
  have hN := Nat.two_pow_pos s.tares.length
  have hmod := Nat.div_add_mod b (2 ^ s.tares.length)
  have hlt := Nat.mod_lt b hN
  have hmul : (b / 2 ^ s.tares.length + 1) * 2 ^ s.tares.length = 2 ^ s.tares.length * (b / 2 ^ s.tares.length) + 2 ^ s.tares.length := by
    rw [Nat.add_mul, Nat.one_mul, Nat.mul_comm]
  obtain ⟨f, hf⟩ := tareLoop_complete s.tares b s.tares.length ((b / 2 ^ s.tares.length + 1) * 2 ^ s.tares.length - 1) (Nat.le_refl _)
    (by omega) (by omega)
  obtain ⟨⟨out, c1, c2⟩, ⟨us, hus, hu⟩, hdisj, -, -, -, h6⟩ := h
  have hget : ∀ (i : Nat) t, s.tares[i]? = some t → ∃ v, us[i]? = some v ∧ t = Lit.pos v := by
    intro i t ht
    rw [hu, List.getElem?_map] at ht
    cases hr : us[i]? with
    | none => rw [hr] at ht; cases ht
    | some v =>
      rw [hr] at ht
      exact ⟨v, rfl, by simpa using ht.symm⟩
  have hown : ∀ t ∈ s.tares, t.var ∈ own := fun t ht => (c2 _).2 (Or.inr (List.mem_map.2 ⟨t, ht, rfl⟩))
  -- choose the values of the tares
  let a' : Asg := fun v => if v ∈ s.tares.map Lit.var then f (us.idxOf v) else a v
  obtain ⟨m, m1, m2, m3, m4⟩ := c1.complete a'
  have htare : ∀ (i : Nat) t, i < s.tares.length → s.tares[i]? = some t → t.holds m = f i := by
    intro i t _ ht
    have hmem := List.mem_of_getElem? ht
    rw [m4 t (by simp [hmem])]
    obtain ⟨v, hv, e⟩ := hget i t ht
    have hidx : us.idxOf v = i := by
      obtain ⟨hi, hv'⟩ := List.getElem?_eq_some_iff.1 hv
      rw [← hv']
      exact hus.idxOf_getElem i hi
    have h3 : a' v = f i := by
      show (if v ∈ s.tares.map Lit.var then f (us.idxOf v) else a v) = f i
      rw [if_pos (List.mem_map.2 ⟨t, hmem, by rw [e, Lit.var_pos]⟩), hidx]
    rw [e, Lit.holds_pos, h3]
  obtain ⟨g1, g2⟩ := hf m htare
  rw [List.take_length] at g2
  have houtv : ∀ v, v ∉ own → m v = a v := by
    intro v hv
    have h3 : v ∉ out := fun hx => hv ((c2 v).2 (Or.inl hx))
    have h4 : v ∉ s.tares.map Lit.var := fun hx => hv ((c2 v).2 (Or.inr hx))
    rw [m1 v h3]
    exact if_neg h4
  have h8 : wsumT (trueLits m) (divided s.precDiv ins) = wsumT (trueLits a) (divided s.precDiv ins) := by
    unfold divided wsumT
    rw [List.map_map, List.map_map]
    congr 1
    apply List.map_congr_left
    intro y hy
    have h9 : trueLits m y.1 = trueLits a y.1 := by
      have := m4 y.1 (by simp; exact Or.inl ⟨_, hy⟩)
      have h10 : y.1.holds a' = y.1.holds a := Lit.holds_congr (if_neg (hdisj y hy))
      exact this.trans h10
    simp only [Function.comp_apply, h9]
  refine ⟨m, houtv, m3, m2, ?_, ?_, g1⟩
  · rw [h6, h8]
    apply Nat.le_of_lt_succ
    rw [Nat.div_lt_iff_lt_mul hN, Nat.succ_eq_add_one]
    omega
  · rw [h6, h8]
    exact Nat.div_le_div_right (by omega)

/-- Completeness of the assumptions of an output. -/
theorem Built.complete {db : Db} {s : Structure} {n : Nat} {cls : ClauseSet} {ins : List (Lit × Nat)} {own : List Nat}
    (h : Built db s n cls ins own) {b : Nat} {l : Lit} (hl : RootLit db s.root (b / 2 ^ s.tares.length) l)
    {a : Asg} (ha : wsumT (trueLits a) (divided s.precDiv ins) ≤ b) :
    ∃ m, (∀ v, v ∉ own → m v = a v) ∧ ClauseSet.sat m cls ∧
      cubeSat m (l.neg :: tareLoop s.tares b s.tares.length ((b / 2 ^ s.tares.length + 1) * 2 ^ s.tares.length - 1)) := by
  obtain ⟨m, h1, h2, h3, h4, -, h5⟩ := h.choose ha
  obtain ⟨⟨out, c1, -⟩, -⟩ := h
  refine ⟨m, h1, h2, fun x hx => ?_⟩
  rcases List.mem_cons.1 hx with rfl | hx
  · rw [Lit.holds_neg]
    cases hb : l.holds m with
    | false => rfl
    | true =>
      have h7 := (hl.strict c1.wf h3).1 hb
      omega
  · exact h5 x hx

theorem Built.free {db : Db} {s : Structure} {n : Nat} {cls : ClauseSet} {ins : List (Lit × Nat)} {own : List Nat}
    (h : Built db s n cls ins own) (a : Asg) : ∃ m, (∀ v, v ∉ own → m v = a v) ∧ ClauseSet.sat m cls := by
  obtain ⟨⟨out, c1, c2⟩, -⟩ := h
  obtain ⟨m, m1, -, m3, -⟩ := c1.complete a
  exact ⟨m, fun v hv => m1 v fun hx => hv ((c2 v).2 (Or.inl hx)), m3⟩

theorem Inv.insOwn {e : Dpw} {n : Nat} {cls : ClauseSet} {ins : List (Lit × Nat)} {own : List Nat}
    (h : e.Inv n cls ins own) : (∀ v ∈ own, v < n) ∧ (∀ x ∈ ins, x.1.var < n ∧ x.1.var ∉ own) ∧
      ∀ c ∈ cls, ∀ l ∈ c, (∃ x ∈ ins, x.1.var = l.var) ∨ l.var ∈ own := by
  have hcv : ∀ {db : Db} {cls : ClauseSet} {I : List Lit} {O : List Nat}, Core db n cls I O → ∀ c ∈ cls, ∀ l ∈ c,
      (∃ x ∈ I, x.var = l.var) ∨ l.var ∈ O := by
    intro db cls I O hc c hcl l hl
    rcases hc.vars c hcl l hl with ⟨j, l', h1, h2⟩ | ⟨i, k, v, l', h1, h2⟩
    · exact Or.inl ⟨l', hc.leafIn j l' h1, h2⟩
    · right; rw [← h2]; exact hc.outOwn i k v l' h1
  cases hs : e.structure_ with
  | none =>
    have hu := (h.unbuilt hs).core
    refine ⟨hu.ownLt, fun x hx => ⟨hu.insLt x.1 (List.mem_map.2 ⟨x, hx, rfl⟩), hu.disj x.1 (List.mem_map.2 ⟨x, hx, rfl⟩)⟩, fun c hc l hl => ?_⟩
    rcases hcv hu c hc l hl with ⟨y, hy, h1⟩ | h1
    · obtain ⟨x, hx, rfl⟩ := List.mem_map.1 hy
      exact Or.inl ⟨x, hx, h1⟩
    · exact Or.inr h1
  | some s =>
    obtain ⟨⟨out, c1, c2⟩, -, hd, -⟩ := (h.after s hs).built
    refine ⟨fun v hv => ?_, fun x hx => ?_, fun c hc l hl => ?_⟩
    · rcases (c2 v).1 hv with h1 | h1
      · exact c1.ownLt v h1
      · obtain ⟨t, ht, rfl⟩ := List.mem_map.1 h1
        exact c1.insLt t (by simp [ht])
    · have hm : x.1 ∈ ins.map (·.1) ++ s.tares := List.mem_append.2 (Or.inl (List.mem_map.2 ⟨x, hx, rfl⟩))
      refine ⟨c1.insLt _ hm, fun ho => ?_⟩
      rcases (c2 _).1 ho with h1 | h1
      · exact c1.disj _ hm h1
      · exact hd x hx h1
    · rcases hcv c1 c hc l hl with ⟨y, hy, h1⟩ | h1
      · rcases List.mem_append.1 hy with hy | hy
        · obtain ⟨x, hx, rfl⟩ := List.mem_map.1 hy
          exact Or.inl ⟨x, hx, h1⟩
        · right; rw [← h1]; exact (c2 _).2 (Or.inr (List.mem_map.2 ⟨y, hy, rfl⟩))
      · exact Or.inr ((c2 _).2 (Or.inl h1))

theorem Inv.free {e : Dpw} {n : Nat} {cls : ClauseSet} {ins : List (Lit × Nat)} {own : List Nat}
    (h : e.Inv n cls ins own) (a : Asg) : ∃ m, (∀ v, v ∉ own → m v = a v) ∧ ClauseSet.sat m cls := by
  cases hs : e.structure_ with
  | none =>
    obtain ⟨m, m1, -, m3, -⟩ := (h.unbuilt hs).core.complete a
    exact ⟨m, m1, m3⟩
  | some s => exact (h.after s hs).built.free a

/-- `enforce_ub` never excludes an assignment satisfying the bound. -/
theorem Inv.complete {e : Dpw} {n : Nat} {cls : ClauseSet} {ins : List (Lit × Nat)} {own : List Nat}
    (h : e.Inv n cls ins own) (hp : e.precDiv ≤ 1 ∨ 2 ≤ ins.length) {b : Nat} {A : List Lit} (hA : e.enforceUb b = .ok A) {a : Asg}
    (ha : wsumT (trueLits a) (divided e.precDiv ins) ≤ b) : ∃ m, (∀ v, v ∉ own → m v = a v) ∧ ClauseSet.sat m cls ∧ cubeSat m A := by
  obtain ⟨m, m1, m2⟩ := h.free a
  rcases h.enforceUb_cases hp b with ⟨-, h2⟩ | ⟨h2, -⟩ | ⟨s, l, h2, hpd, h3, hlt, h4⟩ | ⟨l, w, h2, h3, h4, h5⟩
  · rw [h2] at hA; cases hA
    exact ⟨m, m1, m2, fun x hx => (by cases hx)⟩
  · rw [h2] at hA; cases hA
  · rw [h4] at hA; cases hA
    have hb := (h.after s h2).built
    exact hb.complete h3 (by rw [hpd]; exact ha)
  · rw [h5] at hA; cases hA
    refine ⟨m, m1, m2, fun x hx => ?_⟩
    have hx : x = l.neg := by simpa using hx
    subst hx
    rw [divided_one h3, h2] at ha
    rw [Lit.holds_neg, Lit.holds_congr (m1 _ ((h.insOwn.2.1 (l, w) (by rw [h2]; simp)).2))]
    cases hl : l.holds a with
    | false => rfl
    | true =>
      exfalso
      have : trueLits a l = true := hl
      simp [wsumT, this] at ha
      omega

/-- If the bound is encoded, `enforce_ub` is sound. -/
theorem Inv.sound {e : Dpw} {n : Nat} {cls : ClauseSet} {ins : List (Lit × Nat)} {own : List Nat}
    (h : e.Inv n cls ins own) (hp : e.precDiv ≤ 1 ∨ 2 ≤ ins.length) {b : Nat} {A : List Lit} (hA : e.enforceUb b = .ok A)
    (hg : ∀ s l, e.structure_ = some s → RootLit e.db s.root (b / 2 ^ s.tares.length) l →
      b / 2 ^ s.tares.length < (e.db.node s.root).maxVal → Good e.db cls s.root (b / 2 ^ s.tares.length))
    {m : Asg} (hm : ClauseSet.sat m cls) (hc : cubeSat m A) : wsumT (trueLits m) (divided e.precDiv ins) ≤ b := by
  rcases h.enforceUb_cases hp b with ⟨h1, h2⟩ | ⟨h2, -⟩ | ⟨s, l, h2, hpd, h3, hlt, h4⟩ | ⟨l, w, h2, h3, h4, h5⟩
  · exact Nat.le_trans (wsumT_le _ _) h1
  · rw [h2] at hA; cases hA
  · rw [h4] at hA; cases hA
    have hb := (h.after s h2).built
    have := hb.sound h3 (hg s l h2 h3 hlt) hm hc
    rwa [hpd] at this
  · rw [h5] at hA; cases hA
    have h6 := hc l.neg (by simp)
    rw [Lit.holds_neg] at h6
    have : trueLits m l = false := by
      show l.holds m = false
      cases hl : l.holds m with
      | false => rfl
      | true => rw [hl] at h6; cases h6
    rw [divided_one h3, h2]
    simp [wsumT, this]

theorem Has.good {e : Dpw} {n : Nat} {cls : ClauseSet} {ins : List (Lit × Nat)} {own : List Nat}
    (h : e.Inv n cls ins own) {b : Nat} (hb : e.Has cls b) : ∀ s l, e.structure_ = some s →
      RootLit e.db s.root (b / 2 ^ s.tares.length) l →
      b / 2 ^ s.tares.length < (e.db.node s.root).maxVal → Good e.db cls s.root (b / 2 ^ s.tares.length) := by
  intro s l hs hl hlt
  obtain ⟨s', h1, -, h2⟩ := hb
  rw [hs] at h1; cases h1
  rcases h2 with h2 | h2
  · exfalso
    omega
  · exact h2

theorem Inv.available {e : Dpw} {n : Nat} {cls : ClauseSet} {ins : List (Lit × Nat)} {own : List Nat}
    (h : e.Inv n cls ins own) (hp : e.precDiv ≤ 1 ∨ 2 ≤ ins.length) {b : Nat} (hb : e.Has cls b) : ∃ A, e.enforceUb b = .ok A := by
  rcases h.enforceUb_cases hp b with ⟨h1, h2⟩ | ⟨-, -, h2⟩ | ⟨s, l, h2, hpd, h3, hlt, h4⟩ | ⟨l, w, h2, h3, h4, h5⟩
  · exact ⟨_, h2⟩
  · obtain ⟨s, h3, h0, h4⟩ := hb
    obtain ⟨-, h5, h6⟩ := h2 s h3 h0
    rcases h4 with h4 | ⟨l, h4, -⟩
    · omega
    · exact absurd ⟨l, h4⟩ h6
  · exact ⟨_, h4⟩
  · exact ⟨_, h5⟩

theorem insert_plain {db : Db} (h : ∀ i, (db.node i).isGeneral = false) {n : Node} (hn : n.isGeneral = false) :
    ∀ i, ((db.insert n).2.node i).isGeneral = false := by
  intro i
  rcases insert_nodes db n with e | e
  · unfold Db.node; rw [e]; exact h i
  · rcases Nat.lt_trichotomy i db.nodes.length with h1 | h1 | h1
    · rw [node_push_lt e h1]; exact h i
    · subst h1; rw [node_push_eq e]; exact hn
    · rw [node_push_gt e h1]; rfl

theorem litWeightQueue_plain : ∀ (lits : List (Lit × Nat)) (db : Db) (q : WeightQ), (∀ i, (db.node i).isGeneral = false) →
    ∀ i, ((litWeightQueue lits db q).2.node i).isGeneral = false := by
  intro lits
  induction lits with
  | nil => intro db q h; exact h
  | cons x lits ih =>
    intro db q h
    unfold litWeightQueue
    exact ih _ _ (insert_plain (n := .leaf x.1) h rfl)

/-- A new encoder. -/
theorem Inv.new {lits : List (Lit × Nat)} {e : Dpw} {n : Nat} (hn : (lits.map (·.1)).Nodup)
    (h : ∀ x ∈ lits, 0 < x.2 ∧ x.1.var < n) (he : Dpw.new lits = some e) : e.Inv n [] lits [] ∧ e.nVars = 0 ∧ e.nClauses = 0 ∧
      e.structure_ = none := by
  unfold Dpw.new at he
  rw [LitMap.ofList_nodup lits hn] at he
  unfold Dpw.ofMap at he
  rw [if_neg (by
    intro h1
    obtain ⟨x, hx, h2⟩ := List.any_eq_true.1 h1
    have := (h x hx).1
    simp at h2; omega)] at he
  have hc0 : Core Db.empty n [] (lits.map (·.1)) [] := by
    have := (CardWorld.start_inv (lits.map (·.1)) (⟨n⟩ : BasicVM) (by
      intro l hl
      obtain ⟨x, hx, rfl⟩ := List.mem_map.1 hl
      exact (h x hx).2)).tot.core
    exact this
  obtain ⟨w1, x1, q1, s1, a1, -, a2⟩ := litWeightQueue_spec lits Db.empty [] hc0.wf
    ⟨List.Pairwise.nil, by simp, by simp, by simp⟩ (fun x hx => (h x hx).1)
  have hpl := litWeightQueue_plain lits Db.empty [] (fun i => by simp [Db.empty, Db.node, Node.isGeneral])
  generalize litWeightQueue lits Db.empty [] = r at he w1 x1 q1 s1 a1 a2 hpl
  obtain ⟨q, db⟩ := r
  simp only at he w1 x1 q1 s1 a1 a2 hpl
  cases he
  refine ⟨⟨rfl, ?_, Or.inl (Nat.le_refl _), Or.inl (Nat.le_refl _), fun x hx => (h x hx).1, fun _ hs => (by cases hs), fun _ => ?_, fun s hs => (by cases hs)⟩, rfl, rfl, rfl⟩
  · show LitMap.total lits = _
    unfold LitMap.total wsumT; simp
  · refine ⟨hc0.ext x1 w1 fun l hl => hl, fun i k v l ho => ?_, hpl, rfl, q1, fun f T => by rw [s1]; simp [qsum], a1, fun y hy => ?_⟩
    · obtain ⟨s, hs⟩ := x1.outAt.1 ho
      rw [show Db.empty.node i = .dummy by simp [Db.empty, Db.node]] at hs
      cases hs
    · rcases a2 y hy with ⟨y', hy', -⟩ | h3
      · cases hy'
      · exact h3

/-- An encoder without literals. -/
theorem Inv.default (n : Nat) : Dpw.default.Inv n [] [] [] := by
  have hc0 : Core Db.empty n [] [] [] := (CardWorld.start_inv [] (⟨n⟩ : BasicVM) (by simp)).tot.core
  refine ⟨rfl, rfl, Or.inl (Nat.zero_le _), Or.inl (Nat.zero_le _), by simp, fun _ hs => (by cases hs), fun _ => ?_, fun s hs => (by cases hs)⟩
  refine ⟨hc0, fun i k v l ho => ?_, fun i => by simp [Dpw.default, Db.empty, Db.node, Node.isGeneral], rfl, ⟨List.Pairwise.nil, by simp [Dpw.default], by simp [Dpw.default], by simp [Dpw.default]⟩,
    fun f T => by simp [qsum, wsumT, Dpw.default], by simp, by simp [Dpw.default]⟩
  obtain ⟨s, hs⟩ := ho
  rw [show Dpw.default.db.node i = .dummy by simp [Dpw.default, Db.empty, Db.node]] at hs
  cases hs

theorem addLit_new {m : LitMap} {x : Lit × Nat} (h : x.1 ∉ m.map (·.1)) : LitMap.addLit m x = m ++ [x] := by
  unfold LitMap.addLit
  cases hg : m.get x.1 with
  | none => exact LitMap.insert_notMem m x.1 x.2 h
  | some w =>
    exfalso
    unfold LitMap.get at hg
    obtain ⟨y, hy, -⟩ := Option.map_eq_some_iff.1 hg
    have h1 := List.mem_of_find?_eq_some hy
    have h2 := List.find?_some hy
    simp at h2
    exact h (List.mem_map.2 ⟨y, h1, h2⟩)

/-- Adding a literal. -/
theorem Inv.addInput {e : Dpw} {n : Nat} {cls : ClauseSet} {ins : List (Lit × Nat)} {own : List Nat}
    (h : e.Inv n cls ins own) {l : Lit} {w : Nat} (hw : 0 < w) (hn : l.var < n) (ho : l.var ∉ own) (hl : l ∉ ins.map (·.1)) :
    (e.structure_ ≠ none ∧ e.addInput l w = none) ∨ (e.structure_ = none ∧ ∃ e', e.addInput l w = some e' ∧
      e'.Inv n cls (ins ++ [(l, w)]) own ∧ e'.structure_ = none ∧ e'.nVars = e.nVars ∧ e'.nClauses = e.nClauses) := by
  cases hs : e.structure_ with
  | some s => exact Or.inl ⟨by simp, by simp [Dpw.addInput, hs]⟩
  | none =>
    refine Or.inr ⟨rfl, ?_⟩
    have hu := h.unbuilt hs
    obtain ⟨w1, x1, q1, s1, a1, a3, a2⟩ := litWeightQueue_spec [(l, w)] e.db e.weightQueue hu.core.wf hu.queue (by simpa using hw)
    simp only [litWeightQueue] at w1 x1 q1 s1 a1 a2 a3
    unfold Dpw.addInput
    rw [hs, if_neg (by simp)]
    have hpl := insert_plain hu.plain (n := .leaf l) rfl
    generalize e.db.insert (.leaf l) = r at w1 x1 q1 s1 a1 a2 a3 hpl
    obtain ⟨id, db⟩ := r
    simp only at w1 x1 q1 s1 a1 a2 a3 hpl
    refine ⟨_, rfl, ⟨?_, ?_, h.pow, ?_, ?_, fun s hs' => ?_, fun _ => ?_, fun s hs' => ?_⟩, rfl, rfl, rfl⟩
    · show LitMap.addLit e.inLits (l, w) = _
      rw [h.lits, addLit_new hl]
    · show e.weightSum + w = _
      rw [h.total]; simp [wsumT]
    · rcases h.max with h1 | ⟨x, hx, h1⟩
      · exact Or.inl h1
      · exact Or.inr ⟨x, by simp [hx], h1⟩
    · intro x hx
      rcases List.mem_append.1 hx with hx | hx
      · exact h.pos x hx
      · simp at hx; subst hx; exact hw
    · cases hs'
    · have hc0 : Core e.db n cls ((ins ++ [(l, w)]).map (·.1)) own := by
        have hc := hu.core
        refine ⟨hc.wf, hc.aux, fun j x hx => ?_, hc.outOwn, hc.ownLt, fun x hx => ?_, fun x hx => ?_, hc.soundIf, hc.soundOnly, hc.strict, hc.vars⟩
        · have := hc.leafIn j x hx
          rw [List.map_append]; exact List.mem_append_left _ this
        · rw [List.map_append] at hx
          rcases List.mem_append.1 hx with hx | hx
          · exact hc.insLt x hx
          · simp at hx; subst hx; exact hn
        · rw [List.map_append] at hx
          rcases List.mem_append.1 hx with hx | hx
          · exact hc.disj x hx
          · simp at hx; subst hx; exact ho
      refine ⟨hc0.ext x1 w1 fun x hx => ?_, fun i k v x hx => ?_, hpl, hu.none, q1, fun f T => ?_, fun x hx => ?_, fun y hy => ?_⟩
      · simp at hx; subst hx; simp
      · exact hu.noOut i k v x (x1.outAt.1 hx)
      · rw [s1, hu.sum]; simp [wsumT]
      · rcases List.mem_append.1 hx with hx | hx
        · obtain ⟨y, hy, h1⟩ := hu.has x hx
          obtain ⟨y', hy', h2⟩ := a3 y hy
          exact ⟨y', hy', h2.trans h1⟩
        · exact a1 x hx
      · rcases a2 y hy with ⟨y', hy', h1⟩ | ⟨x, hx, h1⟩
        · obtain ⟨x, hx, h2⟩ := hu.from_ y' hy'
          exact ⟨x, by simp [hx], h2.trans h1⟩
        · exact ⟨x, List.mem_append_right _ hx, h1⟩
    · cases hs'

theorem harden_spec {n : Node} {pol : Lit → Lit} : ∀ {vs : List Nat} {cls : ClauseSet}, harden n pol vs = some cls →
    ∀ c ∈ cls, ∃ v ∈ vs, ∃ l, nodeLit n v = some (some l) ∧ c = [pol l] := by
  intro vs
  induction vs with
  | nil => intro cls h c hc; cases h; cases hc
  | cons v vs ih =>
    intro cls h c hc
    unfold harden at h
    cases h1 : nodeLit n v with
    | none => rw [h1] at h; cases h
    | some o =>
      cases h2 : harden n pol vs with
      | none => rw [h1, h2] at h; cases o <;> cases h
      | some cs =>
        rw [h1, h2] at h
        cases o with
        | none =>
          cases h
          obtain ⟨v', hv', h3⟩ := ih h2 c hc
          exact ⟨v', by simp [hv'], h3⟩
        | some l =>
          cases h
          rcases List.mem_cons.1 hc with rfl | hc
          · exact ⟨v, by simp, l, h1, rfl⟩
          · obtain ⟨v', hv', h3⟩ := ih h2 c hc
            exact ⟨v', by simp [hv'], h3⟩

theorem harden_some {n : Node} {pol : Lit → Lit} : ∀ {vs : List Nat}, (∀ v ∈ vs, nodeLit n v ≠ none) → harden n pol vs ≠ none := by
  intro vs
  induction vs with
  | nil => intro _ h; cases h
  | cons v vs ih =>
    intro h
    unfold harden
    have h1 := h v (by simp)
    have h2 := ih fun x hx => h x (by simp [hx])
    cases h3 : nodeLit n v with
    | none => exact absurd h3 h1
    | some o =>
      cases h4 : harden n pol vs with
      | none => exact absurd h4 h2
      | some cs => cases o <;> simp

theorem mem_valsFrom {n : Node} (hg : n.isGeneral = false) {lo v : Nat} :
    v ∈ n.valsFrom lo ↔ lo ≤ v ∧ 1 ≤ v ∧ v ≤ n.maxVal := by
  cases n with
  | leaf l => simp only [Node.valsFrom, Node.maxVal]; split <;> simp <;> omega
  | unit lits a b c d => simp only [Node.valsFrom, Node.maxVal, List.mem_range'_1]; omega
  | general lits => cases hg
  | dummy => simp [Node.valsFrom, Node.maxVal]; omega

/-- Values of a node with a literal. -/
theorem rootLit_of_nodeLit {db : Db} {id v : Nat} (hg : (db.node id).isGeneral = false) (h1 : 1 ≤ v) (h2 : v ≤ (db.node id).maxVal) :
    nodeLit (db.node id) v ≠ none ∧ ∀ l, nodeLit (db.node id) v = some (some l) → RootLit db id (v - 1) l := by
  rcases nodeLit_spec (db := db) (id := id) (k := v - 1) hg (by omega) with ⟨l, h3, h4⟩ | ⟨h3, h4⟩ <;>
    rw [Nat.sub_add_cancel h1] at h3 <;> rw [h3]
  · exact ⟨by simp, fun l' h5 => by cases h5; exact h4⟩
  · exact ⟨by simp, fun l' h5 => by cases h5⟩

/-- `limit_range` at full precision. -/
theorem Inv.limitRange {e : Dpw} {n : Nat} {cls : ClauseSet} {ins : List (Lit × Nat)} {own : List Nat}
    (h : e.Inv n cls ins own) (hm : e.isMaxPrecision = true) (r : URange) :
    ∃ lim, e.limitRange r = some lim ∧ ∀ (b : Nat) (a : Asg), r.contains b → b < e.weightSum →
      r.contains (wsumT (trueLits a) (divided e.precDiv ins)) → wsumT (trueLits a) (divided e.precDiv ins) ≤ b →
      (e.precDiv ≤ 1 ∨ 2 ≤ ins.length) → 
      ∃ m, (∀ v, v ∉ own → m v = a v) ∧ ClauseSet.sat m cls ∧ ClauseSet.sat m lim ∧ ∀ A, e.enforceUb b = .ok A → cubeSat m A := by
  unfold Dpw.limitRange
  simp only
  cases hs : e.structure_ with
  | none =>
    refine ⟨[], rfl, fun b a h1 h2 h3 h4 hp => ?_⟩
    have hcomp := fun A hA => h.complete hp (b := b) (A := A) hA h4
    cases hA : e.enforceUb b with
    | ok A =>
      obtain ⟨m, m1, m2, m3⟩ := hcomp A hA
      exact ⟨m, m1, m2, fun c hc => (by cases hc), fun A' hA' => by cases hA'; exact m3⟩
    | err _ =>
      obtain ⟨m, m1, m2⟩ := h.free a
      exact ⟨m, m1, m2, fun c hc => (by cases hc), fun A' hA' => by cases hA'⟩
    | panic =>
      obtain ⟨m, m1, m2⟩ := h.free a
      exact ⟨m, m1, m2, fun c hc => (by cases hc), fun A' hA' => by cases hA'⟩
  | some s =>
    have ha := h.after s hs
    have hb := ha.built
    have hpd : s.precDiv = e.precDiv := by
      rcases ha.prec with h1 | ⟨h1, -⟩
      · exact h1
      · exact absurd (by simpa [isMaxPrecision] using hm) h1
    simp only
    rw [if_pos hm]
    have hg := hb.unit
    unfold Structure.outputPower
    generalize hrange : Pb.prepareUbRange e.weightSum r = range
    obtain ⟨lo, hi⟩ := range
    simp only
    have g1 := harden_some (n := e.db.node s.root) (pol := id) (vs := (e.db.node s.root).valsRange 0 (lo / 2 ^ s.tares.length + 1))
      (fun v hv => (rootLit_of_nodeLit hg ((mem_valsRange hg).1 hv).2.2.1 ((mem_valsRange hg).1 hv).2.2.2).1)
    have g2 := harden_some (n := e.db.node s.root) (pol := Lit.neg) (vs := (e.db.node s.root).valsFrom (divCeil hi (2 ^ s.tares.length)))
      (fun v hv => (rootLit_of_nodeLit hg ((mem_valsFrom hg).1 hv).2.1 ((mem_valsFrom hg).1 hv).2.2).1)
    cases h1 : harden (e.db.node s.root) id ((e.db.node s.root).valsRange 0 (lo / 2 ^ s.tares.length + 1)) with
    | none => exact absurd h1 g1
    | some c1 =>
      cases h2 : harden (e.db.node s.root) Lit.neg ((e.db.node s.root).valsFrom (divCeil hi (2 ^ s.tares.length))) with
      | none => exact absurd h2 g2
      | some c2 =>
        refine ⟨c1 ++ c2, rfl, fun b a hcb hbw hca hab hp => ?_⟩
        have hN := Nat.two_pow_pos s.tares.length
        rw [← hpd] at hca hab
        obtain ⟨m, m1, m2, m3, m4, m5, m6⟩ := hb.choose hab
        have hw := h.wf
        have r1 := (Gte.Inv.prepareUb_iff (ws := e.weightSum)).2 ⟨hcb, hbw⟩
        have r2 := (Gte.Inv.prepareUb_iff (ws := e.weightSum)).2 ⟨hca, by omega⟩
        rw [hrange] at r1 r2
        simp only at r1 r2
        refine ⟨m, m1, m2, fun c hc => ?_, fun A hA x hx => ?_⟩
        · rcases List.mem_append.1 hc with hc | hc
          · obtain ⟨v, hv, l, h3, rfl⟩ := harden_spec h1 c hc
            rw [mem_valsRange hg] at hv
            have h4 := (rootLit_of_nodeLit hg hv.2.2.1 hv.2.2.2).2 l h3
            have h5 := Nat.div_le_div_right (c := 2 ^ s.tares.length) r2.1
            exact ⟨l, by simp, (h4.strict hw m3).2 (by omega)⟩
          · obtain ⟨v, hv, l, h3, rfl⟩ := harden_spec h2 c hc
            rw [mem_valsFrom hg] at hv
            have h4 := (rootLit_of_nodeLit hg hv.2.1 hv.2.2).2 l h3
            refine ⟨l.neg, by simp, ?_⟩
            rw [Lit.holds_neg]
            cases h5 : l.holds m with
            | false => rfl
            | true =>
              exfalso
              have h6 := (h4.strict hw m3).1 h5
              have h7 : (b + 2 ^ s.tares.length) / 2 ^ s.tares.length ≤ divCeil hi (2 ^ s.tares.length) :=
                Nat.div_le_div_right (by omega)
              rw [Nat.add_div_right _ hN] at h7
              omega
        · rcases h.enforceUb_cases hp b with ⟨-, h3⟩ | ⟨h3, -⟩ | ⟨s', l, h3, -, h4, hlt, h5⟩ | ⟨l, w, h3, h4, h5, h6⟩
          · rw [h3] at hA; cases hA; cases hx
          · rw [h3] at hA; cases hA
          · rw [hs] at h3; cases h3
            rw [h5] at hA; cases hA
            rcases List.mem_cons.1 hx with rfl | hx
            · rw [Lit.holds_neg]
              cases h6 : l.holds m with
              | false => rfl
              | true =>
                have := (h4.strict hw m3).1 h6
                omega
            · exact m6 x hx
          · rw [h6] at hA; cases hA
            have hx : x = l.neg := by simpa using hx
            subst hx
            rw [hpd, divided_one h4, h3] at hab
            rw [Lit.holds_neg, Lit.holds_congr (m1 _ ((h.insOwn.2.1 (l, w) (by rw [h3]; simp)).2))]
            cases hl : l.holds a with
            | false => rfl
            | true =>
              exfalso
              have : trueLits a l = true := hl
              simp [wsumT, this] at hab
              omega

theorem nextPrecision_le {e : Dpw} {y : Nat × List NodeCon} {q : WeightQ} (h : e.weightQueue = y :: q) (hy : 0 < y.1) : e.nextPrecision ≤ y.1 := by
  unfold nextPrecision
  rw [h]
  exact digits_le y.1 2 (by omega) hy

theorem nextPrecision_pow (e : Dpw) : ∃ k, e.nextPrecision = 2 ^ k := by
  unfold nextPrecision
  split
  · exact ⟨0, rfl⟩
  · exact ⟨_, rfl⟩

end Dpw

namespace DpwWorld
variable {VM : Type} [ManageVars VM]

/-- The invariant of reachable states; `t` tells that variables are not reserved. -/
structure Inv (t : Prop) (w : DpwWorld VM) : Prop where
  inv : w.dpw.Inv (ManageVars.nUsed w.vm) w.cls w.ins w.own
  ub : ∀ b, w.ub b → b < wsumT (fun _ => true) w.ins → 2 ≤ w.ins.length → w.dpw.Has w.cls b
  clauses : w.dpw.nClauses = w.cls.length
  vars : t → w.dpw.nVars = w.own.length
  good : t → w.dpw.AllGood w.cls
  fits : t → w.dpw.Fits

/-- The operations except `reserve`, and except increasing the precision after the first encoding. -/
def noReserve (w : DpwWorld VM) : DpwOp VM → Prop
  | .reserve => False
  | .setPrecision d => w.dpw.structure_ = none ∨ d = w.dpw.precDiv
  | _ => True

theorem Inv.encoded [LawfulVM VM] {t : Prop} {w : DpwWorld VM} (h : w.Inv t) {r : URange} {o : Option (Dpw × VM × ClauseSet)}
    (he : ∃ e' vm' new, o = some (e', vm', w.cls ++ new) ∧
      e'.Inv (ManageVars.nUsed vm') (w.cls ++ new) w.ins (w.own ++ CardWorld.handedOut w.vm vm') ∧
      e'.nVars = w.dpw.nVars + (CardWorld.handedOut w.vm vm').length ∧ e'.nClauses = w.dpw.nClauses + new.length ∧
      ManageVars.nUsed w.vm ≤ ManageVars.nUsed vm' ∧ e'.precDiv = w.dpw.precDiv ∧
      (∀ b, r.contains b → b < w.dpw.weightSum → 2 ≤ w.ins.length → e'.Has (w.cls ++ new) b) ∧
      (∀ b, w.dpw.Has w.cls b → e'.Has (w.cls ++ new) b) ∧ (w.dpw.Fits → w.dpw.AllGood w.cls → e'.AllGood (w.cls ++ new)) ∧ (w.dpw.Fits → e'.Fits)) :
    ∃ w', w.encoded o (fun b => w.ub b ∨ r.contains b) = some w' ∧ w'.Inv t := by
  obtain ⟨e', vm', new, rfl, h1, h2, h3, h4, h5, h6, h7, h8, h9⟩ := he
  refine ⟨_, rfl, h1, fun b hb hlt hl => ?_, ?_, fun ht => ?_, fun ht => h8 (h.fits ht) (h.good ht), fun ht => h9 (h.fits ht)⟩
  · rcases hb with hb | hb
    · exact h7 b (h.ub b hb hlt hl)
    · exact h6 b hb (by rw [h.inv.total]; exact hlt) hl
  · show e'.nClauses = (w.cls ++ new).length
    rw [h3, h.clauses, List.length_append]
  · show e'.nVars = (w.own ++ _).length
    rw [h2, h.vars ht, List.length_append]

theorem step_spec [LawfulVM VM] {t : Prop} (w : DpwWorld VM) (h : w.Inv t) (op : DpwOp VM) (ha : w.allowed op)
    (hr : t → w.noReserve op) : ∃ w', w.step op = some w' ∧ w'.Inv t := by
  cases op with
  | add l wt =>
    obtain ⟨a1, a2, a3, a4⟩ := ha
    rcases h.inv.addInput a1 a2 a3 a4 with ⟨h1, h2⟩ | ⟨h1, e', h2, h3, h4, h5, h6⟩
    · unfold step; simp only; rw [h2]; exact ⟨w, rfl, h⟩
    · unfold step; simp only; rw [h2]
      refine ⟨_, rfl, h3, fun b hb => hb.elim, h6.trans h.clauses, fun ht => h5.trans (h.vars ht), fun _ s hs => ?_, fun _ s hs => ?_⟩ <;>
      have hs' : e'.structure_ = some s := hs
      · rw [h4] at hs'; cases hs'
      · rw [h4] at hs'; cases hs'
  | setPrecision d =>
    unfold step
    simp only
    cases hx : w.dpw.setPrecision d with
    | err x => exact ⟨w, rfl, h⟩
    | panic =>
      exfalso
      unfold Dpw.setPrecision at hx
      split at hx
      · cases hx
      · split at hx <;> cases hx
    | ok e' =>
      simp only
      unfold Dpw.setPrecision at hx
      by_cases h1 : ¬ (d ≤ 1 ∨ isPow2 d = true)
      · rw [if_pos h1] at hx; cases hx
      · rw [if_neg h1] at hx
        by_cases h2 : w.dpw.structure_.isSome = true ∧ d > w.dpw.precDiv
        · rw [if_pos h2] at hx; cases hx
        · rw [if_neg h2] at hx
          have hpow := Decidable.not_not.1 h1
          cases hx
          rcases ha with ⟨ha1, ha2⟩ | ⟨x, hx⟩ | hsame | ⟨hq, hd1, hd2⟩
          · refine ⟨_, rfl, ⟨h.inv.lits, h.inv.total, hpow, ha2, h.inv.pos, fun s hs => ?_, fun hn => h.inv.unbuilt ha1, fun s hs => ?_⟩, fun b hb hlt hl => ?_, h.clauses, h.vars,
              fun _ s hs => ?_, fun _ s hs => ?_⟩
            · exact absurd (ha1.symm.trans hs) (by simp)
            · exact absurd (ha1.symm.trans hs) (by simp)
            · obtain ⟨s, h2, -⟩ := h.ub b hb.1 hlt hl
              rw [ha1] at h2; cases h2
            · exact absurd (ha1.symm.trans hs) (by simp)
            · exact absurd (ha1.symm.trans hs) (by simp)
          · unfold Dpw.setPrecision at hx
            rw [if_neg h1, if_neg h2] at hx
            cases hx
          · subst hsame
            exact ⟨_, rfl, h.inv, fun b hb hlt hl => h.ub b hb.1 hlt hl, h.clauses, h.vars, h.good, h.fits⟩
          · cases hs0 : w.dpw.structure_ with
            | none =>
              -- the precision is not above the largest weight
              have hu := h.inv.unbuilt hs0
              refine ⟨_, rfl, ⟨h.inv.lits, h.inv.total, hpow, ?_, h.inv.pos, fun s hs => ?_, fun hn => hu, fun s hs => ?_⟩, fun b hb hlt hl => ?_, h.clauses, h.vars,
                fun _ s hs => ?_, fun _ s hs => ?_⟩
              · right
                obtain ⟨y, qt, hwq⟩ := List.exists_cons_of_ne_nil (l := w.dpw.weightQueue) (by simpa [Dpw.isMaxPrecision] using hq)
                obtain ⟨x, hx, h3⟩ := hu.from_ y (by rw [hwq]; simp)
                have h4 := Dpw.nextPrecision_le (e := w.dpw) hwq (hu.queue.pos y (by rw [hwq]; simp))
                exact ⟨x, hx, by show d ≤ x.2; omega⟩
              · cases hs
              · cases hs
              · obtain ⟨s, h2, -⟩ := h.ub b hb.1 hlt hl
                rw [hs0] at h2; cases h2
              · cases hs
              · cases hs
            | some s0 =>
              have ha := h.inv.after s0 hs0
              have hle : d ≤ w.dpw.precDiv := by
                rw [hs0] at h2
                simp at h2
                exact h2
              obtain ⟨y, qt, hwq⟩ := List.exists_cons_of_ne_nil (l := w.dpw.weightQueue) (by simpa [Dpw.isMaxPrecision] using hq)
              have h4 := Dpw.nextPrecision_le (e := w.dpw) hwq (ha.queue y (by rw [hwq]; simp)).1
              have hmx : w.dpw.weightQueue.maxWeight = y.1 := by rw [hwq]; rfl
              refine ⟨_, rfl, ⟨h.inv.lits, h.inv.total, hpow, ?_, h.inv.pos, fun s hs => h.inv.two s (hs0.trans hs), fun hn => (by cases hn), fun s hs => ?_⟩, fun b hb hlt hl => ?_, h.clauses, h.vars,
                fun ht s hs => h.good ht s (hs0.trans hs), fun ht s hs => ?_⟩
              · rcases h.inv.max with h5 | ⟨x, hx, h5⟩
                · exact Or.inl (by show d ≤ 1; omega)
                · exact Or.inr ⟨x, hx, by show d ≤ x.2; omega⟩
              · cases hs
                exact ⟨ha.built, ha.loc, ha.pow, ha.queue, Or.inr ⟨by rw [hwq]; simp, hd1, by show d ≤ w.dpw.weightQueue.maxWeight; omega⟩, ha.rest, ha.full⟩
              · rcases hb.2 with h5 | h5
                · cases h5
                · subst h5
                  have := h.ub b hb.1 hlt hl
                  obtain ⟨s, h6, h7⟩ := this
                  exact ⟨s, hs0.symm.trans h6, h7⟩
              · cases hs
                rcases hr ht with h5 | h5
                · rw [hs0] at h5; cases h5
                · exact (h.fits ht s0 hs0).trans h5.symm
  | encodeUb r => exact h.encoded (h.inv.encodeUb r)
  | encodeUbChange r => exact h.encoded (h.inv.encodeUbChange r)
  | reserve =>
    obtain ⟨e', vm', h1, h2, h3, h4, h5, h6, -⟩ := h.inv.reserve
    unfold step
    simp only
    rw [h1]
    exact ⟨_, rfl, h2, fun b hb hlt hl => h6 b (h.ub b hb hlt hl), h3.trans h.clauses, fun ht => (hr ht).elim, fun ht => (hr ht).elim, fun ht => (hr ht).elim⟩
  | useVars vm => exact ⟨_, rfl, h.inv.more ha, h.ub, h.clauses, h.vars, h.good, h.fits⟩

theorem Reach.inv [LawfulVM VM] {t : Prop} {R : DpwWorld VM → DpwOp VM → Prop} (hR : t → ∀ w op, R w op → w.noReserve op) {w : DpwWorld VM}
    (h : Reach R w) : w.Inv t := by
  induction h with
  | start lits vm e hn h he =>
    obtain ⟨h1, h2, h3, h4⟩ := Dpw.Inv.new hn h he
    refine ⟨h1, fun b hb => hb.elim, h3, fun _ => h2, fun _ s hs => ?_, fun _ s hs => ?_⟩
    · have hs' : e.structure_ = some s := hs
      rw [h4] at hs'; cases hs'
    · have hs' : e.structure_ = some s := hs
      rw [h4] at hs'; cases hs'
  | default vm => exact ⟨Dpw.Inv.default _, fun b hb => hb.elim, rfl, fun _ => rfl, fun _ s hs => (by cases hs), fun _ s hs => (by cases hs)⟩
  | step w w' op _ hr ha hs ih =>
    obtain ⟨w'', h1, h2⟩ := step_spec w ih op ha fun ht => hR ht w op hr
    rw [hs] at h1; cases h1; exact h2

/-- All operations except `reserve`. -/
def notReserve (_ : DpwWorld VM) (op : DpwOp VM) : Prop := op ≠ .reserve

/-- Without reserving, the variables are counted. -/
theorem Reach.vars [LawfulVM VM] {w : DpwWorld VM} (h : Reach notReserve w) : w.dpw.nVars = w.own.length := by
  induction h with
  | start lits vm e hn h he => exact (Dpw.Inv.new hn h he).2.1
  | default vm => rfl
  | step w w' op hw hr ha hs ih =>
    have hi : w.Inv False := hw.inv fun ht => ht.elim
    cases op with
    | add l wt =>
      obtain ⟨a1, a2, a3, a4⟩ := ha
      rcases hi.inv.addInput a1 a2 a3 a4 with ⟨-, h2⟩ | ⟨-, e', h2, -, -, h5, -⟩
      · unfold DpwWorld.step at hs; simp only at hs; rw [h2] at hs; cases hs; exact ih
      · unfold DpwWorld.step at hs; simp only at hs; rw [h2] at hs; cases hs; exact h5.trans ih
    | encodeUb r =>
      obtain ⟨e', vm', new, h1, -, h3, -⟩ := hi.inv.encodeUb r
      unfold DpwWorld.step at hs; simp only at hs; rw [h1] at hs; cases hs
      show e'.nVars = _
      rw [h3, ih, List.length_append]
    | encodeUbChange r =>
      obtain ⟨e', vm', new, h1, -, h3, -⟩ := hi.inv.encodeUbChange r
      unfold DpwWorld.step at hs; simp only at hs; rw [h1] at hs; cases hs
      show e'.nVars = _
      rw [h3, ih, List.length_append]
    | reserve => exact absurd rfl hr
    | useVars vm => unfold DpwWorld.step at hs; cases hs; exact ih
    | setPrecision d =>
      unfold DpwWorld.step at hs
      simp only at hs
      cases hx : w.dpw.setPrecision d with
      | ok d' =>
        rw [hx] at hs
        cases hs
        unfold Dpw.setPrecision at hx
        split at hx
        · cases hx
        · split at hx
          · cases hx
          · cases hx; exact ih
      | err e => rw [hx] at hs; cases hs; exact ih
      | panic => rw [hx] at hs; cases hs

end DpwWorld
end RustSat
