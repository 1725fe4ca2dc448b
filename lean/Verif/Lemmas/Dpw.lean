import Verif.Model.Dpw
import Verif.Lemmas.Gte
import Verif.Lemmas.Am1
import Mathlib.Tactic.Ring
/-
The structure built by the dynamic polynomial watchdog: the value of its root node.
-/
namespace RustSat
open TotDb
namespace Dpw

/-- The sum of the values of connections. -/
def csum (db : Db) (T : Lit → Bool) (cons : List NodeCon) : Nat := (cons.map (conVal db T)).sum

theorem csum_append (db : Db) (T : Lit → Bool) (a b : List NodeCon) : csum db T (a ++ b) = csum db T a + csum db T b := by
  simp [csum]

theorem csum_single (db : Db) (T : Lit → Bool) (c : NodeCon) : csum db T [c] = conVal db T c := by
  simp [csum]

theorem csum_ext {dm : Prop} {L : List Lit} {a b : Db} (h : ExtD dm L a b) (hw : a.WF) (T : Lit → Bool) {cons : List NodeCon}
    (hc : ∀ c ∈ cons, FullCon a c) : csum b T cons = csum a T cons := by
  unfold csum
  rw [List.map_congr_left fun c hc' => h.conVal hw T (hc c hc').1.id]

theorem full_ext {dm : Prop} {L : List Lit} {a b : Db} (h : ExtD dm L a b) {c : NodeCon} (hc : FullCon a c) : FullCon b c :=
  ⟨h.unit hc.1, hc.2⟩

/-- A full connection that is not constantly zero. -/
def PosCon (db : Db) (c : NodeCon) : Prop := FullCon db c ∧ 1 ≤ conVal db (fun _ => true) c

theorem pos_ext {dm : Prop} {L : List Lit} {a b : Db} (h : ExtD dm L a b) (hw : a.WF) {c : NodeCon} (hc : PosCon a c) : PosCon b c :=
  ⟨full_ext h hc.1, by rw [h.conVal hw _ hc.1.1.id]; exact hc.2⟩

theorem csum_pos {db : Db} {cons : List NodeCon} (hne : cons ≠ []) (h : ∀ c ∈ cons, PosCon db c) : 1 ≤ csum db (fun _ => true) cons := by
  cases cons with
  | nil => exact absurd rfl hne
  | cons c cs =>
    have := (h c (by simp)).2
    unfold csum
    simp only [List.map_cons, List.sum_cons]
    omega

/-- The value of the weight queue if weights are changed by `f`. -/
def qsum (f : Nat → Nat) (db : Db) (T : Lit → Bool) (q : WeightQ) : Nat := (q.map fun e => f e.1 * csum db T e.2).sum

/-- The value of the top buckets. -/
def topsVal (db : Db) (T : Lit → Bool) : List (List NodeCon) → Nat
  | [] => 0
  | c :: cs => csum db T c + 2 * topsVal db T cs

/-- The value of the tares. -/
def tareVal (T : Lit → Bool) : List Lit → Nat
  | [] => 0
  | t :: ts => (if T t then 1 else 0) + 2 * tareVal T ts

/-- The entries of the weight queue. -/
structure QOK (db : Db) (q : WeightQ) : Prop where
  sorted : q.Pairwise fun a b => b.1 < a.1
  pos : ∀ e ∈ q, 0 < e.1
  ne : ∀ e ∈ q, e.2 ≠ []
  full : ∀ e ∈ q, ∀ c ∈ e.2, PosCon db c

theorem QOK.ext {dm : Prop} {L : List Lit} {a b : Db} {q : WeightQ} (h : QOK a q) (he : ExtD dm L a b) (hw : a.WF) : QOK b q :=
  ⟨h.sorted, h.pos, h.ne, fun e hm c hc => pos_ext he hw (h.full e hm c hc)⟩

theorem QOK.con {db : Db} {q : WeightQ} (h : QOK db q) : ∀ e ∈ q, ∀ c ∈ e.2, FullCon db c := fun e he c hc => (h.full e he c hc).1

theorem qsum_ext {dm : Prop} {L : List Lit} {a b : Db} (h : ExtD dm L a b) (hw : a.WF) (f : Nat → Nat) (T : Lit → Bool)
    {q : WeightQ} (hc : ∀ e ∈ q, ∀ c ∈ e.2, FullCon a c) : qsum f b T q = qsum f a T q := by
  unfold qsum
  rw [List.map_congr_left fun e he => by rw [csum_ext h hw T (hc e he)]]

theorem topsVal_ext {dm : Prop} {L : List Lit} {a b : Db} (h : ExtD dm L a b) (hw : a.WF) (T : Lit → Bool) :
    ∀ {tops : List (List NodeCon)}, (∀ cs ∈ tops, ∀ c ∈ cs, FullCon a c) → topsVal b T tops = topsVal a T tops := by
  intro tops
  induction tops with
  | nil => intro _; rfl
  | cons c cs ih =>
    intro hc
    unfold topsVal
    rw [csum_ext h hw T (hc c (by simp)), ih fun x hx => hc x (by simp [hx])]

theorem push_mem : ∀ (q : WeightQ) (w : Nat) (c : NodeCon), ∀ e ∈ WeightQ.push q w c,
    e.1 = w ∨ e ∈ q := by
  intro q w c
  induction q with
  | nil => intro e he; simp only [WeightQ.push, List.mem_singleton] at he; exact Or.inl (by rw [he])
  | cons x q ih =>
    intro e he
    obtain ⟨v, cs⟩ := x
    unfold WeightQ.push at he
    by_cases h1 : w = v
    · rw [if_pos h1] at he
      rcases List.mem_cons.1 he with rfl | he
      · exact Or.inl h1.symm
      · exact Or.inr (by simp [he])
    · rw [if_neg h1] at he
      by_cases h2 : v < w
      · rw [if_pos h2] at he
        rcases List.mem_cons.1 he with rfl | he
        · exact Or.inl rfl
        · exact Or.inr he
      · rw [if_neg h2] at he
        rcases List.mem_cons.1 he with rfl | he
        · exact Or.inr (by simp)
        · rcases ih e he with h | h
          · exact Or.inl h
          · exact Or.inr (by simp [h])

theorem push_con : ∀ (q : WeightQ) (w : Nat) (c : NodeCon), ∀ e ∈ WeightQ.push q w c, ∀ x ∈ e.2, x = c ∨ ∃ e' ∈ q, x ∈ e'.2 := by
  intro q w c
  induction q with
  | nil =>
    intro e he x hx
    simp only [WeightQ.push, List.mem_singleton] at he
    rw [he] at hx
    exact Or.inl (by simpa using hx)
  | cons y q ih =>
    intro e he x hx
    obtain ⟨v, cs⟩ := y
    unfold WeightQ.push at he
    by_cases h1 : w = v
    · rw [if_pos h1] at he
      rcases List.mem_cons.1 he with rfl | he
      · rcases List.mem_append.1 hx with hx | hx
        · exact Or.inr ⟨(v, cs), by simp, hx⟩
        · exact Or.inl (by simpa using hx)
      · exact Or.inr ⟨e, by simp [he], hx⟩
    · rw [if_neg h1] at he
      by_cases h2 : v < w
      · rw [if_pos h2] at he
        rcases List.mem_cons.1 he with rfl | he
        · exact Or.inl (by simpa using hx)
        · exact Or.inr ⟨e, he, hx⟩
      · rw [if_neg h2] at he
        rcases List.mem_cons.1 he with rfl | he
        · exact Or.inr ⟨_, by simp, hx⟩
        · rcases ih e he x hx with h | ⟨e', h, h'⟩
          · exact Or.inl h
          · exact Or.inr ⟨e', by simp [h], h'⟩

theorem push_has : ∀ (q : WeightQ) (w : Nat) (c : NodeCon), (∃ e ∈ WeightQ.push q w c, e.1 = w) ∧
    ∀ e ∈ q, ∃ e' ∈ WeightQ.push q w c, e'.1 = e.1 := by
  intro q w c
  induction q with
  | nil => simp [WeightQ.push]
  | cons x q ih =>
    obtain ⟨v, cs⟩ := x
    unfold WeightQ.push
    by_cases h1 : w = v
    · rw [if_pos h1]
      refine ⟨⟨_, List.mem_cons_self, h1.symm⟩, fun e he => ?_⟩
      rcases List.mem_cons.1 he with rfl | he
      · exact ⟨_, List.mem_cons_self, rfl⟩
      · exact ⟨e, by simp [he], rfl⟩
    · rw [if_neg h1]
      by_cases h2 : v < w
      · rw [if_pos h2]
        exact ⟨⟨_, List.mem_cons_self, rfl⟩, fun e he => ⟨e, List.mem_cons_of_mem _ he, rfl⟩⟩
      · rw [if_neg h2]
        obtain ⟨⟨e0, h3, h4⟩, h5⟩ := ih
        refine ⟨⟨e0, List.mem_cons_of_mem _ h3, h4⟩, fun e he => ?_⟩
        rcases List.mem_cons.1 he with rfl | he
        · exact ⟨_, List.mem_cons_self, rfl⟩
        · obtain ⟨e', h6, h7⟩ := h5 e he
          exact ⟨e', List.mem_cons_of_mem _ h6, h7⟩

theorem push_ok {db : Db} : ∀ {q : WeightQ} {w : Nat} {c : NodeCon}, QOK db q → 0 < w → PosCon db c →
    QOK db (WeightQ.push q w c) := by
  intro q w c h hw hc
  induction q with
  | nil => exact ⟨by simp [WeightQ.push], by simpa [WeightQ.push] using hw, by simp [WeightQ.push], by simpa [WeightQ.push] using hc⟩
  | cons x q ih =>
    obtain ⟨v, cs⟩ := x
    have hs := List.pairwise_cons.1 h.sorted
    have ht : QOK db q := ⟨hs.2, fun e he => h.pos e (by simp [he]), fun e he => h.ne e (by simp [he]),
      fun e he => h.full e (by simp [he])⟩
    unfold WeightQ.push
    by_cases h1 : w = v
    · rw [if_pos h1]
      refine ⟨List.pairwise_cons.2 ⟨fun e he => hs.1 e he, hs.2⟩, ?_, ?_, ?_⟩
      · intro e he
        rcases List.mem_cons.1 he with rfl | he
        · exact h.pos (v, cs) (by simp)
        · exact ht.pos e he
      · intro e he
        rcases List.mem_cons.1 he with rfl | he
        · simp
        · exact ht.ne e he
      · intro e he
        rcases List.mem_cons.1 he with rfl | he
        · intro c' hc'
          rcases List.mem_append.1 hc' with hc' | hc'
          · exact h.full (v, cs) (by simp) c' hc'
          · rw [List.mem_singleton] at hc'; subst hc'; exact hc
        · exact ht.full e he
    · rw [if_neg h1]
      by_cases h2 : v < w
      · rw [if_pos h2]
        refine ⟨List.pairwise_cons.2 ⟨fun e he => ?_, h.sorted⟩, ?_, ?_, ?_⟩
        · rcases List.mem_cons.1 he with rfl | he
          · exact h2
          · exact Nat.lt_trans (hs.1 e he) h2
        · intro e he
          rcases List.mem_cons.1 he with rfl | he
          · exact hw
          · exact h.pos e he
        · intro e he
          rcases List.mem_cons.1 he with rfl | he
          · simp
          · exact h.ne e he
        · intro e he
          rcases List.mem_cons.1 he with rfl | he
          · intro c' hc'; rw [List.mem_singleton] at hc'; subst hc'; exact hc
          · exact h.full e he
      · rw [if_neg h2]
        have hi := ih ht
        refine ⟨List.pairwise_cons.2 ⟨fun e he => ?_, hi.sorted⟩, ?_, ?_, ?_⟩
        · rcases push_mem q w c e he with h3 | h3
          · simp only; omega
          · exact hs.1 e h3
        · intro e he
          rcases List.mem_cons.1 he with rfl | he
          · exact h.pos (v, cs) (by simp)
          · exact hi.pos e he
        · intro e he
          rcases List.mem_cons.1 he with rfl | he
          · exact h.ne (v, cs) (by simp)
          · exact hi.ne e he
        · intro e he
          rcases List.mem_cons.1 he with rfl | he
          · exact h.full (v, cs) (by simp)
          · exact hi.full e he

theorem push_sum (f : Nat → Nat) (db : Db) (T : Lit → Bool) : ∀ (q : WeightQ) (w : Nat) (c : NodeCon),
    qsum f db T (WeightQ.push q w c) = qsum f db T q + f w * conVal db T c := by
  intro q w c
  induction q with
  | nil => simp [WeightQ.push, qsum, csum]
  | cons x q ih =>
    obtain ⟨v, cs⟩ := x
    unfold WeightQ.push
    by_cases h1 : w = v
    · rw [if_pos h1]
      unfold qsum
      simp only [List.map_cons, List.sum_cons, csum_append, csum_single, h1]
      rw [Nat.mul_add]; omega
    · rw [if_neg h1]
      by_cases h2 : v < w
      · rw [if_pos h2]
        unfold qsum
        simp only [List.map_cons, List.sum_cons, csum_single]
        omega
      · rw [if_neg h2]
        unfold qsum at ih ⊢
        simp only [List.map_cons, List.sum_cons]
        omega

/-- The initial weight queue represents the weighted sum of the literals. -/
theorem litWeightQueue_spec : ∀ (lits : List (Lit × Nat)) (db : Db) (q : WeightQ), db.WF → QOK db q →
    (∀ x ∈ lits, 0 < x.2) →
    let r := litWeightQueue lits db q
    r.2.WF ∧ Ext (lits.map (·.1)) db r.2 ∧ QOK r.2 r.1 ∧
      (∀ f T, qsum f r.2 T r.1 = qsum f db T q + wsumT T (lits.map fun x => (x.1, f x.2))) ∧
      (∀ x ∈ lits, ∃ e ∈ r.1, e.1 = x.2) ∧ (∀ e ∈ q, ∃ e' ∈ r.1, e'.1 = e.1) ∧
      ∀ e ∈ r.1, (∃ e' ∈ q, e'.1 = e.1) ∨ ∃ x ∈ lits, x.2 = e.1 := by
  intro lits
  induction lits with
  | nil =>
    intro db q hw hq _
    simp only [litWeightQueue]
    exact ⟨hw, Ext.refl _ _, hq, fun f T => by simp [wsumT], by simp, fun e he => ⟨e, he, rfl⟩, fun e he => Or.inl ⟨e, he, rfl⟩⟩
  | cons x lits ih =>
    intro db q hw hq hp
    simp only [litWeightQueue]
    have h1 := insert_leaf hw x.1
    simp only at h1
    generalize db.insert (.leaf x.1) = r1 at h1 ⊢
    obtain ⟨id, db1⟩ := r1
    obtain ⟨a1, a2, a3, a4⟩ := h1
    simp only at a1 a2 a3 a4 ⊢
    have hf : PosCon db1 (NodeCon.full id) := ⟨⟨full_unit a4 (by rw [a3]; rfl), rfl⟩, by rw [conVal_full, value_leaf a1 a3]; simp⟩
    have h2 := ih db1 (WeightQ.push q x.2 (NodeCon.full id)) a1 (push_ok (hq.ext a2 hw) (hp x (by simp)) hf)
      fun y hy => hp y (by simp [hy])
    simp only at h2
    generalize litWeightQueue lits db1 _ = r2 at h2 ⊢
    obtain ⟨q2, db2⟩ := r2
    obtain ⟨b1, b2, b3, b4, b5, b6, b7⟩ := h2
    simp only at b1 b2 b3 b4 b5 b6 b7 ⊢
    refine ⟨b1, (a2.mono (by simp)).trans (b2.mono fun y hy => by simp at hy ⊢; exact Or.inr hy), b3, fun f T => ?_, ?_, ?_, ?_⟩
    · rw [b4 f T, push_sum, qsum_ext a2 hw f T hq.con, conVal_full, value_leaf a1 a3]
      unfold wsumT
      simp only [List.map_cons, List.sum_cons]
      cases T x.1 <;> simp <;> omega
    · intro y hy
      rcases List.mem_cons.1 hy with rfl | hy
      · obtain ⟨e, h3, h4⟩ := (push_has q y.2 (NodeCon.full id)).1
        obtain ⟨e', h5, h6⟩ := b6 e h3
        exact ⟨e', h5, by omega⟩
      · exact b5 y hy
    · intro e he
      obtain ⟨e', h3, h4⟩ := (push_has q x.2 (NodeCon.full id)).2 e he
      obtain ⟨e'', h5, h6⟩ := b6 e' h3
      exact ⟨e'', h5, by omega⟩
    · intro e he
      rcases b7 e he with ⟨e', h3, h4⟩ | ⟨y, h3, h4⟩
      · rcases push_mem _ _ _ e' h3 with h5 | h5
        · exact Or.inr ⟨x, by simp, by omega⟩
        · exact Or.inl ⟨e', h5, h4⟩
      · exact Or.inr ⟨y, by simp [h3], h4⟩

theorem topsVal_modify (db : Db) (T : Lit → Bool) (c : NodeCon) : ∀ (tops : List (List NodeCon)) (i : Nat), i < tops.length →
    topsVal db T (tops.modify i (· ++ [c])) = topsVal db T tops + 2 ^ i * conVal db T c := by
  intro tops
  induction tops with
  | nil => intro i h; simp at h
  | cons x tops ih =>
    intro i h
    cases i with
    | zero =>
      simp only [List.modify_zero_cons, topsVal, csum_append, csum_single]
      simp; omega
    | succ i =>
      simp only [List.modify_succ_cons, topsVal]
      rw [ih i (by simpa using h)]
      ring

theorem topsVal_empty (db : Db) (T : Lit → Bool) : ∀ n, topsVal db T (List.replicate n []) = 0 := by
  intro n
  induction n with
  | zero => rfl
  | succ n ih => rw [List.replicate_succ]; unfold topsVal; rw [ih]; rfl

theorem mem_modify_append {α : Type} (c : α) : ∀ (tops : List (List α)) (i : Nat), ∀ cs ∈ tops.modify i (· ++ [c]), ∀ x ∈ cs,
    x = c ∨ ∃ cs' ∈ tops, x ∈ cs' := by
  intro tops
  induction tops with
  | nil => intro i cs h; simp at h
  | cons t tops ih =>
    intro i cs h x hx
    cases i with
    | zero =>
      simp only [List.modify_zero_cons, List.mem_cons] at h
      rcases h with rfl | h
      · rcases List.mem_append.1 hx with h | h
        · exact Or.inr ⟨t, by simp, h⟩
        · exact Or.inl (by simpa using h)
      · exact Or.inr ⟨cs, by simp [h], hx⟩
    | succ i =>
      simp only [List.modify_succ_cons, List.mem_cons] at h
      rcases h with rfl | h
      · exact Or.inr ⟨_, by simp, hx⟩
      · rcases ih i cs h x hx with h1 | ⟨cs', h1, h2⟩
        · exact Or.inl h1
        · exact Or.inr ⟨cs', by simp [h1], h2⟩

theorem modify_getD_ne {α : Type} (c : α) (tops : List (List α)) (i j : Nat) (h : tops.getD j [] ≠ [] ∨ (i = j ∧ i < tops.length)) :
    (tops.modify i (· ++ [c])).getD j [] ≠ [] := by
  rw [List.getD_eq_getElem?_getD, List.getElem?_modify]
  rw [List.getD_eq_getElem?_getD] at h
  by_cases hij : i = j
  · subst hij
    rcases h with h | ⟨-, h⟩
    · cases ht : tops[i]? with
      | none => rw [ht] at h; exact absurd rfl h
      | some x => simp
    · rw [List.getElem?_eq_getElem h]; simp
  · rcases h with h | ⟨h, -⟩
    · cases ht : tops[j]? with
      | none => rw [ht] at h; exact absurd rfl h
      | some x => rw [ht] at h; simpa [hij] using h
    · exact absurd h hij

theorem qsum_small {p : Nat} (db : Db) (T : Lit → Bool) : ∀ {q : WeightQ}, (∀ e ∈ q, e.1 < 2 ^ p) → qsum (· / 2 ^ p) db T q = 0 := by
  intro q
  induction q with
  | nil => intro _; rfl
  | cons e q ih =>
    intro h
    have := ih fun x hx => h x (by simp [hx])
    unfold qsum at this ⊢
    simp only [List.map_cons, List.sum_cons]
    rw [this, Nat.div_eq_of_lt (h e (by simp))]
    simp

/-- No node but the bottom buckets has a bottom bucket as a child, and, if `g` holds, there are no generalized totalizers. -/
structure SepD (g : Prop) (bs : List Nat) (db : Db) : Prop where
  plainG : g → ∀ i, (db.node i).isGeneral = false
  lt : ∀ b ∈ bs, b < db.nodes.length
  inner : ∀ b ∈ bs, ∃ l r, (db.node b).shape = .inner l r
  avoid : ∀ i l r, (db.node i).shape = .inner l r → i ∉ bs → l.id ∉ bs ∧ r.id ∉ bs

/-- `SepD` in a database without generalized totalizers. -/
abbrev Sep := SepD True

theorem SepD.plain {bs : List Nat} {db : Db} (h : Sep bs db) : ∀ i, (db.node i).isGeneral = false := h.plainG trivial

theorem SepD.nil {g : Prop} {db : Db} (h : g → ∀ i, (db.node i).isGeneral = false) : SepD g [] db := ⟨h, by simp, by simp, by simp⟩

theorem Sep.nil {db : Db} (h : ∀ i, (db.node i).isGeneral = false) : Sep [] db := SepD.nil fun _ => h

theorem node_push_lt {db db' : Db} {n : Node} (h : db'.nodes = db.nodes ++ [n]) {i : Nat} (hi : i < db.nodes.length) : db'.node i = db.node i := by
  unfold Db.node
  rw [h, List.getD_eq_getElem?_getD, List.getD_eq_getElem?_getD, List.getElem?_append_left hi]

theorem node_push_eq {db db' : Db} {n : Node} (h : db'.nodes = db.nodes ++ [n]) : db'.node db.nodes.length = n := by
  unfold Db.node
  rw [h, List.getD_eq_getElem?_getD]
  simp

theorem node_push_gt {db db' : Db} {n : Node} (h : db'.nodes = db.nodes ++ [n]) {i : Nat} (hi : db.nodes.length < i) : db'.node i = .dummy := by
  apply Db.node_out
  rw [h]; simp; omega

theorem SepD.push {g : Prop} {bs : List Nat} {db db' : Db} (hs : SepD g bs db) {n : Node} (h : db'.nodes = db.nodes ++ [n]) (hg : n.isGeneral = false)
    (hn : ∀ l r, n.shape = .inner l r → l.id ∉ bs ∧ r.id ∉ bs) : SepD g bs db' := by
  refine ⟨fun hg0 i => ?_, fun b hb => ?_, fun b hb => ?_, fun i l r hi hb => ?_⟩
  · rcases Nat.lt_trichotomy i db.nodes.length with h1 | h1 | h1
    · rw [node_push_lt h h1]; exact hs.plainG hg0 i
    · subst h1; rw [node_push_eq h]; exact hg
    · rw [node_push_gt h h1]; rfl
  · rw [h]; have := hs.lt b hb; simp; omega
  · rw [node_push_lt h (hs.lt b hb)]; exact hs.inner b hb
  · rcases Nat.lt_trichotomy i db.nodes.length with h1 | h1 | h1
    · rw [node_push_lt h h1] at hi; exact hs.avoid i l r hi hb
    · subst h1; rw [node_push_eq h] at hi; exact hn l r hi
    · rw [node_push_gt h h1] at hi; cases hi

/-- A new bottom bucket. -/
theorem SepD.bucket {g : Prop} {bs : List Nat} {db db' : Db} (hs : SepD g bs db) (hw : db'.WF) {n : Node} (h : db'.nodes = db.nodes ++ [n]) {a c : NodeCon}
    (hn : n.shape = .inner a c) (hg : n.isGeneral = false) : SepD g (bs ++ [db.nodes.length]) db' := by
  refine ⟨fun hg0 i => ?_, fun b hb => ?_, fun b hb => ?_, fun i l r hi hb => ?_⟩
  · rcases Nat.lt_trichotomy i db.nodes.length with h1 | h1 | h1
    · rw [node_push_lt h h1]; exact hs.plainG hg0 i
    · subst h1; rw [node_push_eq h]; exact hg
    · rw [node_push_gt h h1]; rfl
  · rw [h]
    rcases List.mem_append.1 hb with hb | hb
    · have := hs.lt b hb; simp; omega
    · simp at hb; simp; omega
  · rcases List.mem_append.1 hb with hb | hb
    · rw [node_push_lt h (hs.lt b hb)]; exact hs.inner b hb
    · rw [List.mem_singleton] at hb; subst hb; rw [node_push_eq h]; exact ⟨a, c, hn⟩
  · have hb1 : i ∉ bs := fun h => hb (by simp [h])
    have hb2 : i ≠ db.nodes.length := fun h => hb (by simp [h])
    obtain ⟨c1, c2⟩ := hw.children hi
    rcases Nat.lt_trichotomy i db.nodes.length with h1 | h1 | h1
    · rw [node_push_lt h h1] at hi
      obtain ⟨a1, a2⟩ := hs.avoid i l r hi hb1
      simp only [List.mem_append, List.mem_singleton, not_or]
      exact ⟨⟨a1, by omega⟩, a2, by omega⟩
    · exact absurd h1 hb2
    · rw [node_push_gt h h1] at hi; cases hi

theorem insert_nodes (db : Db) (n : Node) : (db.insert n).2.nodes = db.nodes ∨ (db.insert n).2.nodes = db.nodes ++ [n] := by
  unfold Db.insert
  cases n with
  | leaf l => simp only; cases db.lookupLeaf.lookup l <;> simp
  | dummy => simp only; cases db.dummyId <;> simp
  | unit => simp
  | general => simp

theorem insert_inner_id (db : Db) (n : Node) {l r : NodeCon} (h : n.shape = .inner l r) :
    (db.insert n).1 = db.nodes.length ∧ (db.insert n).2.nodes = db.nodes ++ [n] := by
  unfold Db.insert
  cases n with
  | leaf l => cases h
  | dummy => cases h
  | unit => simp
  | general => simp

theorem SepD.same {g : Prop} {bs : List Nat} {db db' : Db} (hs : SepD g bs db) (h : db'.nodes = db.nodes) : SepD g bs db' := by
  have hn : ∀ i, db'.node i = db.node i := fun i => by unfold Db.node; rw [h]
  exact ⟨fun hg i => by rw [hn]; exact hs.plainG hg i, fun b hb => by rw [h]; exact hs.lt b hb, fun b hb => by rw [hn]; exact hs.inner b hb, fun i l r hi => hs.avoid i l r (by rw [← hn]; exact hi)⟩

theorem SepD.insert {g : Prop} {bs : List Nat} {db : Db} (hs : SepD g bs db) {n : Node} (hg : n.isGeneral = false)
    (hn : ∀ l r, n.shape = .inner l r → l.id ∉ bs ∧ r.id ∉ bs) : SepD g bs (db.insert n).2 := by
  rcases insert_nodes db n with h | h
  · exact hs.same h
  · exact hs.push h hg hn

theorem SepD.mergeCons {g : Prop} {bs : List Nat} {db : Db} (hs : SepD g bs db) {l r : NodeCon} (hl : l.id ∉ bs) (hr : r.id ∉ bs) (fl : FullCon db l) (fr : FullCon db r) :
    SepD g bs (mergeCons db l r).2 ∧ (mergeCons db l r).1.id ∉ bs := by
  have hid : db.nodes.length ∉ bs := fun h => absurd (hs.lt _ h) (by omega)
  unfold TotDb.mergeCons
  rw [if_neg (by rw [fl.1.mult]; omega)]
  simp only
  have h1 := hs.insert (n := Node.internal l r db) (by
    unfold Node.internal
    simp only
    rw [if_neg (by rw [fl.1.mult, fr.1.mult, fl.1.notGeneral, fr.1.notGeneral]; simp)]
    rfl) (by
    intro a b hab; rw [internal_shape] at hab; cases hab; exact ⟨hl, hr⟩)
  have h2 := insert_inner_id db _ (internal_shape l r db)
  generalize db.insert (Node.internal l r db) = res at h1 h2 ⊢
  obtain ⟨id, db'⟩ := res
  simp only at h1 h2 ⊢
  exact ⟨h1, by rw [h2.1]; exact hid⟩

theorem SepD.mergeRec {g : Prop} {bs : List Nat} :
    ∀ (fuel : Nat) (db : Db) (cons : List NodeCon) (cum : List Nat) (offset : Nat), db.WF → SepD g bs db → cons ≠ [] →
      cons.length ≤ fuel → cum.length = cons.length → cum.Pairwise (· ≤ ·) → (∀ v ∈ cum, offset ≤ v) →
      (∀ c ∈ cons, c.id ∉ bs ∧ FullCon db c) →
      SepD g bs (mergeBalancedRec fuel db cons cum offset).2 ∧ (mergeBalancedRec fuel db cons cum offset).1.id ∉ bs := by
  intro fuel
  induction fuel with
  | zero =>
    intro db cons cum offset hwf hw hne hf
    have := List.length_pos_iff.2 hne
    omega
  | succ fuel ih =>
    intro db cons cum offset hwf hw hne hf hcl hcs hco hc
    rw [mergeBalancedRec.eq_def]
    match cons, hne with
    | [c], _ => exact ⟨hw, (hc c (by simp)).1⟩
    | c1 :: c2 :: cs, _ =>
      simp only
      generalize hcons : c1 :: c2 :: cs = cons at *
      have hcl2 : 2 ≤ cum.length := by rw [hcl, ← hcons]; simp
      have hsp := split_bounds hcl2 hco
      generalize hsd : 1 + ((cum.drop 1).takeWhile fun v =>
        decide (v < (cum.getD (cum.length - 1) 0 - offset) / 2 + offset)).length = split at hsp ⊢
      have hs1 : 1 ≤ split := by omega
      have hL := ih db (cons.take split) (cum.take split) offset hwf hw
        (by intro h; have := congrArg List.length h; rw [List.length_take, List.length_nil] at this; omega)
        (by rw [List.length_take]; omega) (by rw [List.length_take, List.length_take]; omega)
        (hcs.sublist (List.take_sublist _ _)) (fun v hv => hco v (List.mem_of_mem_take hv))
        (fun c h => hc c (List.mem_of_mem_take h))
      have hLs := mergeBalancedRec_spec mergeable_full fuel db (cons.take split) (cum.take split) offset hwf
        (by intro h; have := congrArg List.length h; rw [List.length_take, List.length_nil] at this; omega)
        (by rw [List.length_take]; omega) (by rw [List.length_take, List.length_take]; omega)
        (hcs.sublist (List.take_sublist _ _)) (fun v hv => hco v (List.mem_of_mem_take hv))
        (fun c h => (hc c (List.mem_of_mem_take h)).2)
      simp only at hLs
      generalize mergeBalancedRec fuel db (cons.take split) (cum.take split) offset = resL at hL hLs ⊢
      obtain ⟨lcon, db1⟩ := resL
      obtain ⟨l1, l2⟩ := hL
      obtain ⟨lw, lx, lf, -⟩ := hLs
      simp only at l1 l2 lw lx lf ⊢
      have hside : ∀ v ∈ cum.drop split, cum.getD (split - 1) 0 ≤ v := fun v hv => by
        have hsplit : (cum.take split ++ cum.drop split).Pairwise (· ≤ ·) := by
          rw [List.take_append_drop]; exact hcs
        refine (List.pairwise_append.1 hsplit).2.2 _ ?_ v hv
        rw [List.getD_eq_getElem?_getD, List.getElem?_eq_getElem (by omega)]
        simp only [Option.getD_some]
        rw [List.mem_take_iff_getElem]
        exact ⟨split - 1, by omega, rfl⟩
      have hfd : ∀ c ∈ cons.drop split, FullCon db1 c := fun c h => full_ext lx (hc c (List.mem_of_mem_drop h)).2
      have hR := ih db1 (cons.drop split) (cum.drop split) (cum.getD (split - 1) 0) lw l1
        (by intro h; have := congrArg List.length h; rw [List.length_drop, List.length_nil] at this; omega)
        (by rw [List.length_drop]; omega) (by rw [List.length_drop, List.length_drop]; omega)
        (hcs.sublist (List.drop_sublist _ _)) hside
        (fun c h => ⟨(hc c (List.mem_of_mem_drop h)).1, hfd c h⟩)
      have hRs := mergeBalancedRec_spec mergeable_full fuel db1 (cons.drop split) (cum.drop split) (cum.getD (split - 1) 0) lw
        (by intro h; have := congrArg List.length h; rw [List.length_drop, List.length_nil] at this; omega)
        (by rw [List.length_drop]; omega) (by rw [List.length_drop, List.length_drop]; omega)
        (hcs.sublist (List.drop_sublist _ _)) hside hfd
      simp only at hRs
      generalize mergeBalancedRec fuel db1 (cons.drop split) (cum.drop split) (cum.getD (split - 1) 0) = resR at hR hRs ⊢
      obtain ⟨rcon, db2⟩ := resR
      obtain ⟨r1, r2⟩ := hR
      obtain ⟨-, rx, rf, -⟩ := hRs
      simp only at r1 r2 rx rf ⊢
      exact r1.mergeCons l2 r2 (full_ext rx lf) rf

theorem SepD.merge {g : Prop} {bs : List Nat} {db db' : Db} (hs : SepD g bs db) (hw : db.WF) {cons : List NodeCon} {c : NodeCon} (h : mergeBalanced db cons = (some c, db'))
    (hm : ∀ c ∈ cons, FullCon db c) (hc : ∀ c ∈ cons, c.id ∉ bs) : SepD g bs db' ∧ c.id ∉ bs := by
  unfold mergeBalanced at h
  by_cases he : cons = []
  · subst he; simp at h
  · rw [if_neg (by simpa using he)] at h
    simp only [Prod.mk.injEq, Option.some.injEq] at h
    have := SepD.mergeRec cons.length db cons (cumWeight db 0 cons) 0 hw hs he (Nat.le_refl _)
      (cumWeight_length db cons 0) (cumWeight_sorted db cons 0) (by simp) fun c h => ⟨hc c h, hm c h⟩
    rw [h.1, h.2] at this
    exact this

theorem mergeBalanced_pos {db : Db} (hw : db.WF) {cons : List NodeCon} (hne : cons ≠ []) (hc : ∀ c ∈ cons, PosCon db c) :
    ∃ c db', mergeBalanced db cons = (some c, db') ∧ db'.WF ∧ Ext [] db db' ∧ PosCon db' c ∧
      ∀ T, conVal db' T c = (cons.map (conVal db T)).sum := by
  obtain ⟨c, db', h1, h2, h3, h4, h5⟩ := mergeBalanced_spec mergeable_full hw hne fun c h => (hc c h).1
  refine ⟨c, db', h1, h2, h3, ⟨h4, ?_⟩, h5⟩
  rw [h5]
  exact csum_pos hne hc

/-- Distributing the weights. `p` is the number of skipped levels. -/
theorem distribute_spec {precDiv p n : Nat} (hpd : ∀ w, 0 < w → (precDiv ≤ w ↔ 2 ^ p ≤ w)) :
    ∀ (fuel : Nat) (q : WeightQ) (tops : List (List NodeCon)) (db : Db), db.WF → QOK db q →
    (∀ e ∈ q, e.1 < fuel ∧ e.1 < 2 ^ (n + p)) → tops.length = n → (∀ cs ∈ tops, ∀ c ∈ cs, PosCon db c) →
    ∃ q' tops' db', distribute precDiv p fuel q tops db = some (q', tops', db') ∧ db'.WF ∧ Ext [] db db' ∧ QOK db' q' ∧
      (∀ e ∈ q', e.1 < 2 ^ p) ∧ tops'.length = n ∧ (∀ cs ∈ tops', ∀ c ∈ cs, PosCon db' c) ∧
      (∀ T, topsVal db' T tops' = topsVal db T tops + qsum (· / 2 ^ p) db T q) ∧
      (∀ i, tops.getD i [] ≠ [] → tops'.getD i [] ≠ []) ∧
      (∀ e, q.head? = some e → 2 ^ p ≤ e.1 → tops'.getD (digits e.1 2 - 1 - p) [] ≠ []) ∧
      (∀ (f : Nat → Nat) T, f 0 = 0 → qsum f db' T q' = qsum (fun w => f (w % 2 ^ p)) db T q) ∧
      ∀ (g : Prop) (bs : List Nat), SepD g bs db → (∀ e ∈ q, ∀ c ∈ e.2, c.id ∉ bs) → (∀ cs ∈ tops, ∀ c ∈ cs, c.id ∉ bs) →
        SepD g bs db' ∧ (∀ e ∈ q', ∀ c ∈ e.2, c.id ∉ bs) ∧ ∀ cs ∈ tops', ∀ c ∈ cs, c.id ∉ bs := by
  intro fuel
  induction fuel with
  | zero =>
    intro q tops db hw hq hlt hn hc
    cases q with
    | nil => exact ⟨[], tops, db, rfl, hw, Ext.refl _ _, hq, by simp, hn, hc, fun T => by simp [qsum], fun _ h => h, by simp, fun f T _ => by simp [qsum], fun _ bs h1 h2 h3 => ⟨h1, h2, h3⟩⟩
    | cons e q => exact absurd (hlt e (by simp)).1 (by omega)
  | succ fuel ih =>
    intro q tops db hw hq hlt hn hc
    cases q with
    | nil => exact ⟨[], tops, db, rfl, hw, Ext.refl _ _, hq, by simp, hn, hc, fun T => by simp [qsum], fun _ h => h, by simp, fun f T _ => by simp [qsum], fun _ bs h1 h2 h3 => ⟨h1, h2, h3⟩⟩
    | cons e q =>
      obtain ⟨w, cons⟩ := e
      have hw0 : 0 < w := hq.pos (w, cons) (by simp)
      have hs := List.pairwise_cons.1 hq.sorted
      unfold distribute
      by_cases hpw : precDiv ≤ w
      · rw [if_pos hpw]
        have hp2 : 2 ^ p ≤ w := (hpd w hw0).1 hpw
        obtain ⟨c, db1, e1, w1, x1, f1, v1⟩ := mergeBalanced_pos hw (hq.ne (w, cons) (by simp))
          (hq.full (w, cons) (by simp))
        rw [e1]
        simp only
        have hd1 := digits_le w 2 (by omega) hw0
        have hd2 := digits_lt w 2 (by omega)
        have hd0 := digits_pos w 2 (by omega)
        generalize hd : digits w 2 = d at hd1 hd2 hd0 ⊢
        have hwn : w < 2 ^ (n + p) := (hlt (w, cons) (by simp)).2
        have hpd' : p < d := by
          rcases Nat.lt_or_ge p d with h | h
          · exact h
          · have := Nat.pow_le_pow_right (n := 2) (by omega) h; omega
        have hdn : d - 1 < n + p := by
          rcases Nat.lt_or_ge (d - 1) (n + p) with h | h
          · exact h
          · have := Nat.pow_le_pow_right (n := 2) (by omega) h; omega
        have hsplit : 2 ^ (d - 1) = 2 ^ p * 2 ^ (d - 1 - p) := by rw [← Nat.pow_add]; congr 1; omega
        have hdd : 2 ^ d = 2 * 2 ^ (d - 1) := by rw [← Nat.pow_succ']; congr 1; omega
        have hq1 : QOK db1 q := ⟨hs.2, fun e he => hq.pos e (by simp [he]), fun e he => hq.ne e (by simp [he]),
          fun e he c hc => pos_ext x1 hw (hq.full e (by simp [he]) c hc)⟩
        have hsplit' : w = (w - 2 ^ (d - 1)) + 2 ^ p * 2 ^ (d - 1 - p) := by omega
        have hdiv : w / 2 ^ p = 2 ^ (d - 1 - p) + (w - 2 ^ (d - 1)) / 2 ^ p := by
          rw [show w / 2 ^ p = ((w - 2 ^ (d - 1)) + 2 ^ p * 2 ^ (d - 1 - p)) / 2 ^ p from by rw [← hsplit'],
            Nat.add_mul_div_left _ _ (Nat.two_pow_pos p)]
          omega
        have hmod : (w - 2 ^ (d - 1)) % 2 ^ p = w % 2 ^ p := by
          rw [show w % 2 ^ p = ((w - 2 ^ (d - 1)) + 2 ^ p * 2 ^ (d - 1 - p)) % 2 ^ p from by rw [← hsplit'], Nat.add_mul_mod_self_left]
        have hqf : ∀ f T, qsum f db1 T q = qsum f db T q := fun f T =>
          qsum_ext x1 hw f T fun e he => hq.con e (by simp [he])
        generalize hq2 : (if 0 < w - 2 ^ (d - 1) then WeightQ.push q (w - 2 ^ (d - 1)) c else q) = q2
        have hq2ok : QOK db1 q2 := by
          rw [← hq2]
          by_cases hr : 0 < w - 2 ^ (d - 1)
          · rw [if_pos hr]; exact push_ok hq1 hr f1
          · rw [if_neg hr]; exact hq1
        have hq2lt : ∀ e ∈ q2, e.1 < w := by
          intro e he
          rw [← hq2] at he
          by_cases hr : 0 < w - 2 ^ (d - 1)
          · rw [if_pos hr] at he
            have := Nat.two_pow_pos (d - 1)
            rcases push_mem _ _ _ e he with h | h
            · omega
            · exact hs.1 e h
          · rw [if_neg hr] at he; exact hs.1 e he
        have hq2sum : ∀ f T, f 0 = 0 → qsum f db1 T q2 = qsum f db1 T q + f (w - 2 ^ (d - 1)) * conVal db1 T c := by
          intro f T hf
          rw [← hq2]
          by_cases hr : 0 < w - 2 ^ (d - 1)
          · rw [if_pos hr, push_sum]
          · rw [if_neg hr, show w - 2 ^ (d - 1) = 0 by omega, hf]; simp
        have hq2con : ∀ e ∈ q2, ∀ x ∈ e.2, x = c ∨ ∃ e' ∈ q, x ∈ e'.2 := by
          rw [← hq2]
          by_cases hr : 0 < w - 2 ^ (d - 1)
          · rw [if_pos hr]; exact push_con _ _ _
          · rw [if_neg hr]; exact fun e he x hx => Or.inr ⟨e, he, hx⟩
        have hfuel := (hlt (w, cons) (by simp)).1
        obtain ⟨q', tops', db', e2, w2, x2, o2, l2, n2, c2, v2, k2, h2, r2, s2⟩ := ih q2 (tops.modify (d - 1 - p) (· ++ [c])) db1 w1 hq2ok
          (fun e he => by have := hq2lt e he; simp only at hfuel; omega) (by simpa using hn) (by
            intro cs hcs x hx
            rcases mem_modify_append c tops _ cs hcs x hx with rfl | ⟨cs', h3, h4⟩
            · exact f1
            · exact pos_ext x1 hw (hc cs' h3 x h4))
        refine ⟨q', tops', db', e2, w2, x1.trans x2, o2, l2, n2, c2, fun T => ?_, fun i hi => ?_, fun e he _ => ?_, fun f T hf => ?_, fun g bs hb1 hb2 hb3 => ?_⟩
        · rw [v2 T, topsVal_modify db1 T c tops _ (by omega), topsVal_ext x1 hw T (fun cs h c h' => (hc cs h c h').1), hq2sum _ T (by simp), hqf]
          rw [show qsum (· / 2 ^ p) db T ((w, cons) :: q) = (w / 2 ^ p) * csum db T cons + qsum (· / 2 ^ p) db T q from by
            simp [qsum], hdiv, show csum db T cons = conVal db1 T c from (v1 T).symm]
          ring
        · exact k2 i (modify_getD_ne c tops _ i (Or.inl hi))
        · simp only [List.head?_cons, Option.some.injEq] at he
          subst he
          simp only [hd]
          exact k2 _ (modify_getD_ne c tops _ _ (Or.inr ⟨rfl, by omega⟩))
        · rw [r2 f T hf, hq2sum _ T (by simpa using hf), hqf]
          rw [show qsum (fun w => f (w % 2 ^ p)) db T ((w, cons) :: q) = f (w % 2 ^ p) * csum db T cons + qsum (fun w => f (w % 2 ^ p)) db T q from by
            simp [qsum], hmod, show csum db T cons = conVal db1 T c from (v1 T).symm]
          ring
        · obtain ⟨s1, s1'⟩ := hb1.merge hw e1 (hq.con (w, cons) (by simp)) (hb2 (w, cons) (by simp))
          refine s2 g bs s1 (fun e he x hx => ?_) (fun cs hcs x hx => ?_)
          · rcases hq2con e he x hx with rfl | ⟨e', h3, h4⟩
            · exact s1'
            · exact hb2 e' (by simp [h3]) x h4
          · rcases mem_modify_append c tops _ cs hcs x hx with rfl | ⟨cs', h3, h4⟩
            · exact s1'
            · exact hb3 cs' h3 x h4
      · rw [if_neg hpw]
        have hp2 : ¬ 2 ^ p ≤ w := fun h => hpw ((hpd w hw0).2 h)
        have hall : ∀ e ∈ (w, cons) :: q, e.1 < 2 ^ p := by
          intro e he
          rcases List.mem_cons.1 he with rfl | he
          · simp only; omega
          · have := hs.1 e he; simp only at this; omega
        refine ⟨_, tops, db, rfl, hw, Ext.refl _ _, hq, hall, hn, hc, fun T => ?_, fun _ h => h, fun e he h => ?_, fun f T _ => ?_, fun _ bs h1 h2 h3 => ⟨h1, h2, h3⟩⟩
        · have := qsum_small db T hall
          omega
        · simp only [List.head?_cons, Option.some.injEq] at he
          subst he
          exact absurd h hp2
        · unfold qsum
          congr 1
          apply List.map_congr_left
          intro e he
          show _ = f (e.1 % 2 ^ p) * _
          rw [Nat.mod_eq_of_lt (hall e he)]

/-- Inserting a dummy node. -/
theorem insert_dummy {db : Db} (hw : db.WF) :
    let r := db.insert .dummy
    r.2.WF ∧ ExtD True [] db r.2 ∧ r.2.node r.1 = .dummy ∧ r.1 < r.2.nodes.length := by
  simp only [Db.insert]
  cases h : db.dummyId with
  | some id =>
    have := hw.dummy id h
    exact ⟨hw, ExtD.refl _ _ _, Db.node_eq this, (List.getElem?_eq_some_iff.1 this).1⟩
  | none =>
    refine ⟨WF_push (n := .dummy) hw trivial ?_ ?_ trivial, ⟨[.dummy], rfl, by simp [Node.blank], by simp, by simp⟩, ?_, by simp⟩
    · intro l' id hl
      exact getElem?_append_of_some (hw.lookup l' id hl)
    · intro id hid
      cases hid
      simp
    · apply Db.node_eq; simp

theorem FullCon.val {db : Db} {c : NodeCon} (h : FullCon db c) (T : Lit → Bool) : conVal db T c = value db T c.id := by
  rw [h.2, conVal_full]; rfl

/-- A connection to every second output. -/
theorem half_unit {db : Db} {id : Nat} (h : id < db.nodes.length) (hg : (db.node id).isGeneral = false) :
    UnitCon db ⟨id, 0, 2, 1, none⟩ ∧ ∀ T, conVal db T ⟨id, 0, 2, 1, none⟩ = value db T id / 2 := by
  refine ⟨⟨h, ⟨by simp, by simp, by simp⟩, rfl, by simp, hg⟩, fun T => ?_⟩
  unfold conVal NodeCon.map
  simp only [Nat.sub_zero, Nat.mul_one]
  split
  · rename_i h; have : value db T id = 0 := by omega
    rw [this]
  · rfl

/-- What is carried over from the last bottom bucket. -/
def carry (db : Db) (T : Lit → Bool) : Option (Nat × Nat) → Nat
  | none => 0
  | some x => value db T x.1 / 2

/-- Splitting off the lowest level. -/
theorem level_div (X V len : Nat) (h : 1 ≤ len) : (X + 2 * V) / 2 ^ len = (X / 2 + V) / 2 ^ (len - 1) := by
  have h1 : 2 ^ len = 2 * 2 ^ (len - 1) := by rw [← Nat.pow_succ']; congr 1; omega
  rw [h1, ← Nat.div_div_eq_div_mul, Nat.add_mul_div_left _ _ (by omega : 0 < 2)]

/-- The connection of a bottom bucket to the bucket before it. -/
def PrevCon (db : Db) (r : NodeCon) : Option Nat → Prop
  | none => db.node r.id = .dummy
  | some p => r = ⟨p, 0, 2, 1, none⟩

/-- A bottom bucket that merges a top bucket with the bottom bucket before it. -/
def Link (db : Db) (prev : Option Nat) (b : Nat) : Prop :=
  ∃ lits dp nl l r, db.node b = .unit lits dp nl l r ∧ FullCon db l ∧ PrevCon db r prev

/-- Consecutive bottom buckets, the lowest one first. -/
def Chain (db : Db) : Option Nat → List Nat → Prop
  | _, [] => True
  | prev, b :: bs => Link db prev b ∧ Chain db (some b) bs

/-- The top bucket of a bottom bucket. -/
def leftCon (db : Db) (b : Nat) : NodeCon :=
  match db.node b with
  | .unit _ _ _ l _ => l
  | _ => NodeCon.full 0

/-- The number represented by the top buckets. -/
def leftSum (db : Db) (T : Lit → Bool) : List Nat → Nat
  | [] => 0
  | b :: bs => conVal db T (leftCon db b) + 2 * leftSum db T bs

theorem link_lt {db : Db} {prev : Option Nat} {b : Nat} (h : Link db prev b) : b < db.nodes.length := by
  obtain ⟨lits, dp, nl, l, r, h1, -⟩ := h
  rcases Nat.lt_or_ge b db.nodes.length with h | h
  · exact h
  · rw [Db.node_out h] at h1; cases h1

theorem Link.ext {dm : Prop} {L : List Lit} {a b : Db} (hx : ExtD dm L a b) (hw : a.WF) {prev : Option Nat} {i : Nat} (h : Link a prev i) :
    Link b prev i := by
  have hlt := link_lt h
  obtain ⟨lits, dp, nl, l, r, h1, h2, h3⟩ := h
  refine ⟨lits, dp, nl, l, r, by rw [hx.node hlt]; exact h1, full_ext hx h2, ?_⟩
  cases prev with
  | none =>
    show b.node r.id = _
    have hr := (hw.children (id := i) (l := l) (r := r) (by rw [h1]; rfl)).2
    rw [hx.node (by omega)]
    exact h3
  | some p => exact h3

theorem chain_mem {db : Db} : ∀ {bs : List Nat} {prev : Option Nat}, Chain db prev bs → ∀ b ∈ bs, ∃ p, Link db p b := by
  intro bs
  induction bs with
  | nil => intro prev _ b hb; cases hb
  | cons x bs ih =>
    intro prev h b hb
    rcases List.mem_cons.1 hb with rfl | hb
    · exact ⟨prev, h.1⟩
    · exact ih h.2 b hb

theorem Chain.ext {dm : Prop} {L : List Lit} {a b : Db} (hx : ExtD dm L a b) (hw : a.WF) : ∀ {bs : List Nat} {prev : Option Nat},
    Chain a prev bs → Chain b prev bs := by
  intro bs
  induction bs with
  | nil => intro prev _; trivial
  | cons x bs ih => intro prev h; exact ⟨h.1.ext hx hw, ih h.2⟩

theorem leftCon_link {db : Db} {prev : Option Nat} {b : Nat} (h : Link db prev b) : FullCon db (leftCon db b) := by
  obtain ⟨lits, dp, nl, l, r, h1, h2, -⟩ := h
  unfold leftCon
  rw [h1]
  exact h2

theorem leftCon_child {db : Db} (hw : db.WF) {prev : Option Nat} {b : Nat} (h : Link db prev b) : (leftCon db b).id < b := by
  obtain ⟨lits, dp, nl, l, r, h1, h2, -⟩ := h
  unfold leftCon
  rw [h1]
  exact (hw.children (id := b) (l := l) (r := r) (by rw [h1]; rfl)).1

theorem leftSum_ext {dm : Prop} {L : List Lit} {a b : Db} (hx : ExtD dm L a b) (hw : a.WF) (T : Lit → Bool) : ∀ {bs : List Nat} {prev : Option Nat},
    Chain a prev bs → leftSum b T bs = leftSum a T bs := by
  intro bs
  induction bs with
  | nil => intro prev _; rfl
  | cons x bs ih =>
    intro prev h
    unfold leftSum
    rw [ih h.2, show leftCon b x = leftCon a x from by unfold leftCon; rw [hx.node (link_lt h.1)], hx.conVal hw T (leftCon_link h.1).1.id]

/-- The value of the last bottom bucket. -/
theorem chain_val {db : Db} (hw : db.WF) (T : Lit → Bool) : ∀ {bs : List Nat} {prev : Option Nat} {b : Nat}, Chain db prev bs → bs.getLast? = some b →
    value db T b = (carry db T (prev.map (·, 0)) + leftSum db T bs) / 2 ^ (bs.length - 1) := by
  intro bs
  induction bs with
  | nil => intro prev b _ h; cases h
  | cons x bs ih =>
    intro prev b h hb
    have hx : value db T x = carry db T (prev.map (·, 0)) + conVal db T (leftCon db x) := by
      obtain ⟨lits, dp, nl, l, r, h1, h2, h3⟩ := h.1
      rw [value_eq hw, h1]
      have hlc : leftCon db x = l := by unfold leftCon; rw [h1]
      rw [hlc]
      show conVal db T l + conVal db T r = _
      have : conVal db T r = carry db T (prev.map (·, 0)) := by
        cases prev with
        | none => exact (dummy_con hw h3 T).1
        | some p =>
          rw [show r = ⟨p, 0, 2, 1, none⟩ from h3]
          unfold conVal NodeCon.map
          simp only [Nat.sub_zero, Nat.mul_one]
          show _ = value db T p / 2
          split
          · rename_i h; have : value db T p = 0 := by omega
            rw [this]
          · rfl
      omega
    by_cases hbs : bs = []
    · subst hbs
      simp only [List.getLast?_singleton, Option.some.injEq] at hb
      subst hb
      rw [hx]
      simp [leftSum]
    · have hb' : bs.getLast? = some b := by
        rw [List.getLast?_cons] at hb
        cases hl : bs.getLast? with
        | none => exact absurd (List.getLast?_eq_none_iff.1 hl) hbs
        | some j => rw [hl] at hb; exact hb
      rw [ih h.2 hb']
      have hlp : 1 ≤ bs.length := List.length_pos_iff.2 hbs
      simp only [List.length_cons, Nat.add_sub_cancel, leftSum]
      rw [← Nat.add_assoc, level_div _ _ _ hlp]
      show (value db T x / 2 + _) / _ = _
      rw [hx]

theorem unit_of_shape {n : Node} {l r : NodeCon} (h : n.shape = .inner l r) (hg : n.isGeneral = false) : ∃ lits dp nl, n = .unit lits dp nl l r := by
  cases n with
  | leaf => cases h
  | dummy => cases h
  | unit lits dp nl a b => cases h; exact ⟨_, _, _, rfl⟩
  | general => cases hg

/-- Merging the buckets: the value of the last bottom bucket, and the shape of the bottom buckets. -/
theorem bottoms_spec {g : Prop} (queueEmpty : Bool) (B : List Nat) : ∀ (tops : List (List NodeCon)) (tares : List Lit) (last : Option (Nat × Nat)) (ids0 : List Nat) (db : Db),
    db.WF → SepD g B db → SepD g ids0 db → (tops.length = tares.length + 1 ∨ tops.length = tares.length) →
    (∀ cs ∈ tops, ∀ c ∈ cs, PosCon db c ∧ c.id ∉ B ∧ c.id ∉ ids0) →
    (∀ cs, tops.getLast? = some cs → cs ≠ []) →
    (∀ x, last = some x → x.1 < db.nodes.length ∧ (db.node x.1).isGeneral = false ∧ x.2 = 0 ∧ x.1 ∉ B) →
    ∃ ids db', bottoms queueEmpty tops tares last db = some (ids, db') ∧ db'.WF ∧ ExtD (queueEmpty = false) tares db db' ∧
      (∀ id ∈ ids, id < db'.nodes.length ∧ (db'.node id).isGeneral = false ∧ id ∉ B) ∧ (tops ≠ [] → ids ≠ []) ∧
      (∀ id, ids.getLast? = some id → ∀ T,
        value db' T id = (carry db T last + topsVal db T tops + tareVal T tares) / 2 ^ (tops.length - 1)) ∧
      SepD g B db' ∧
      ((queueEmpty = false ∨ last ≠ none) → SepD g (ids0 ++ ids) db' ∧ (∀ id ∈ ids, db.nodes.length ≤ id) ∧ ids.Nodup ∧
        Chain db' (last.map (·.1)) ids ∧ (∀ id ∈ ids, (leftCon db' id).id ∉ ids0 ++ ids) ∧ ∃ u, u + ids.length = tops.length ∧ (last ≠ none → u = 0) ∧
          ∀ T, topsVal db T tops + tareVal T tares = tareVal T (tares.take u) + 2 ^ u * leftSum db' T ids) := by
  intro tops
  induction tops with
  | nil =>
    intro tares last ids0 db hw hB h0 hlen _ _ _
    refine ⟨[], db, rfl, hw, ExtD.refl _ _ _, by simp, by simp, by simp, hB, fun _ => ⟨by simpa using h0, by simp, by simp, trivial, by simp, 0, rfl, fun _ => rfl, ?_⟩⟩
    intro T
    have : tares = [] := by
      rcases hlen with h | h
      · simp at h
      · exact List.length_eq_zero_iff.1 h.symm
    subst this
    simp [topsVal, tareVal, leftSum]
  | cons cons tops ih =>
    intro tares last ids0 db hw hB h0 hlen hfull hne hlast
    have hnext : tops.length = (tares.drop 1).length + 1 ∨ tops.length = (tares.drop 1).length := by
      simp only [List.length_cons, List.length_drop] at hlen ⊢; omega
    have hnl : ∀ cs, tops.getLast? = some cs → cs ≠ [] := by
      intro cs h
      apply hne cs
      rw [List.getLast?_cons, h]; rfl
    have hcne : tops = [] → cons ≠ [] := by rintro rfl; exact hne cons rfl
    -- the tare
    have h1 : ∃ cons1 db1, addTare cons tares db = (cons1, db1) ∧ db1.WF ∧ Ext (tares.take 1) db db1 ∧ cons1 ≠ [] ∧ (∀ c ∈ cons1, PosCon db1 c) ∧
        (∀ T, csum db1 T cons1 = csum db T cons + tareVal T (tares.take 1)) ∧
        ∀ bs, SepD g bs db → (∀ c ∈ cons, c.id ∉ bs) → SepD g bs db1 ∧ ∀ c ∈ cons1, c.id ∉ bs := by
      cases tares with
      | nil =>
        refine ⟨cons, db, rfl, hw, Ext.refl _ _, ?_, fun c hc => (hfull cons (by simp) c hc).1, fun T => by simp [tareVal], fun bs h1 h2 => ⟨h1, h2⟩⟩
        exact hcne (List.length_eq_zero_iff.1 (by simp only [List.length_cons, List.length_nil] at hlen; omega))
      | cons t ts =>
        have h1 := insert_leaf hw t
        have hsep : ∀ bs, SepD g bs db → SepD g bs (db.insert (.leaf t)).2 := fun bs hb => hb.insert rfl (fun l r h => by cases h)
        simp only [addTare] at h1 ⊢
        generalize db.insert (.leaf t) = r1 at h1 hsep ⊢
        obtain ⟨id, db1⟩ := r1
        obtain ⟨a1, a2, a3, a4⟩ := h1
        simp only at a1 a2 a3 a4 hsep ⊢
        have hf : PosCon db1 (NodeCon.full id) := ⟨⟨full_unit a4 (by rw [a3]; rfl), rfl⟩, by rw [conVal_full, value_leaf a1 a3]; simp⟩
        refine ⟨_, _, rfl, a1, by simpa using a2, by simp, ?_, fun T => ?_, fun bs hb1 hb2 => ⟨hsep bs hb1, fun c hc => ?_⟩⟩
        · intro c hc
          rcases List.mem_append.1 hc with hc | hc
          · exact pos_ext a2 hw (hfull cons (by simp) c hc).1
          · rw [List.mem_singleton] at hc; subst hc; exact hf
        · rw [csum_append, csum_single, conVal_full, value_leaf a1 a3, csum_ext a2 hw T (fun c hc => (hfull cons (by simp) c hc).1.1)]
          simp [tareVal]
        · rcases List.mem_append.1 hc with hc | hc
          · exact hb2 c hc
          · rw [List.mem_singleton] at hc
            subst hc
            intro hm
            obtain ⟨l, r, h⟩ := (hsep bs hb1).inner _ hm
            rw [show (NodeCon.full id).id = id from rfl, a3] at h
            cases h
    obtain ⟨cons1, db1, e1, w1, x1, n1, f1, v1, s1⟩ := h1
    unfold bottoms
    rw [e1]
    simp only
    have hperm := sortBy_perm db1.conLen cons1
    obtain ⟨top, db2, e2, w2, x2, f2, v2⟩ := mergeBalanced_pos w1
      (cons := sortBy db1.conLen cons1) (fun h => n1 (List.Perm.nil_eq (h ▸ hperm)).symm)
      fun c hc => f1 c (hperm.mem_iff.1 hc)
    have s2 : ∀ bs, SepD g bs db → (∀ c ∈ cons, c.id ∉ bs) → SepD g bs db2 ∧ top.id ∉ bs := by
      intro bs hb1 hb2
      obtain ⟨a, b⟩ := s1 bs hb1 hb2
      exact a.merge w1 e2 (fun c hc => (f1 c (hperm.mem_iff.1 hc)).1) fun c hc => b c (hperm.mem_iff.1 hc)
    rw [e2]
    simp only
    have x12 : Ext (tares.take 1) db db2 := x1.trans (x2.mono (by simp))
    have vt : ∀ T, conVal db2 T top = csum db T cons + tareVal T (tares.take 1) := by
      intro T
      rw [v2 T, ← v1 T]
      exact List.Perm.sum_nat (hperm.map _)
    obtain ⟨sB, tB⟩ := s2 B hB fun c hc => (hfull cons (by simp) c hc).2.1
    obtain ⟨s0, t0⟩ := s2 ids0 h0 fun c hc => (hfull cons (by simp) c hc).2.2
    have htare : ∀ T, tareVal T tares = tareVal T (tares.take 1) + 2 * tareVal T (tares.drop 1) := by
      intro T
      cases tares with
      | nil => rfl
      | cons t ts => simp [tareVal]
    have hfc : ∀ cs ∈ tops, ∀ c ∈ cs, FullCon db c := fun cs hcs c hc => (hfull cs (by simp [hcs]) c hc).1.1
    have hLt : ∀ l ∈ tares.take 1, l ∈ tares := fun l hl => List.mem_of_mem_take hl
    have hLd : ∀ l ∈ tares.drop 1, l ∈ tares := fun l hl => List.mem_of_mem_drop hl
    -- continuing with a new bottom bucket `id`
    have key : ∀ (dbx : Db) (id : Nat), dbx.WF → ExtD (queueEmpty = false) (tares.take 1) db dbx → id < dbx.nodes.length →
        (dbx.node id).isGeneral = false → id ∉ B → SepD g B dbx →
        (∀ T, value dbx T id = carry db T last + csum db T cons + tareVal T (tares.take 1)) →
        (queueEmpty = true ∧ last = none ∨ SepD g (ids0 ++ [id]) dbx ∧ db.nodes.length ≤ id ∧ Link dbx (last.map (·.1)) id ∧ (leftCon dbx id).id ∉ ids0 ∧
          ∀ T, conVal dbx T (leftCon dbx id) = csum db T cons + tareVal T (tares.take 1)) →
        ∃ ids db', (match bottoms queueEmpty tops (tares.drop 1) (some (id, 0)) dbx with
          | none => none
          | some (ids, db) => some (id :: ids, db)) = some (ids, db') ∧ db'.WF ∧ ExtD (queueEmpty = false) tares db db' ∧
        (∀ id ∈ ids, id < db'.nodes.length ∧ (db'.node id).isGeneral = false ∧ id ∉ B) ∧ (cons :: tops ≠ [] → ids ≠ []) ∧
        (∀ id, ids.getLast? = some id → ∀ T,
        value db' T id = (carry db T last + topsVal db T (cons :: tops) + tareVal T tares) / 2 ^ ((cons :: tops).length - 1)) ∧
        SepD g B db' ∧ ((queueEmpty = false ∨ last ≠ none) → SepD g (ids0 ++ ids) db' ∧ (∀ id ∈ ids, db.nodes.length ≤ id) ∧ ids.Nodup ∧
        Chain db' (last.map (·.1)) ids ∧ (∀ id ∈ ids, (leftCon db' id).id ∉ ids0 ++ ids) ∧ ∃ u, u + ids.length = (cons :: tops).length ∧ (last ≠ none → u = 0) ∧
          ∀ T, topsVal db T (cons :: tops) + tareVal T tares = tareVal T (tares.take u) + 2 ^ u * leftSum db' T ids) := by
      intro dbx id hwx hxx hid hg hidB hBx hv hlink
      have hids : ∃ ids1, SepD g ids1 dbx ∧ (queueEmpty = true ∧ last = none ∨ ids1 = ids0 ++ [id]) ∧ (∀ b ∈ ids1, b ∈ ids0 ∨ db.nodes.length ≤ b) := by
        rcases hlink with h | ⟨h, h', -⟩
        · exact ⟨[], SepD.nil hBx.plainG, Or.inl h, by simp⟩
        · refine ⟨_, h, Or.inr rfl, fun b hb => ?_⟩
          rcases List.mem_append.1 hb with hb | hb
          · exact Or.inl hb
          · right; simp at hb; omega
      obtain ⟨ids1, hs1, hs2, hs3⟩ := hids
      obtain ⟨ids, db', e3, w3, x3, g3, ne3, v3, b3, k3⟩ := ih (tares.drop 1) (some (id, 0)) ids1 dbx hwx hBx hs1 hnext
        (fun cs hcs c hc => by
          obtain ⟨a1, a2, a3⟩ := hfull cs (by simp [hcs]) c hc
          refine ⟨pos_ext hxx hw a1, a2, fun hm => ?_⟩
          rcases hs3 _ hm with h | h
          · exact a3 h
          · exact absurd a1.1.1.id (by omega)) hnl
        (by intro x hx; cases hx; exact ⟨hid, hg, rfl, hidB⟩)
      rw [e3]
      refine ⟨_, _, rfl, w3, (hxx.mono hLt).trans (x3.mono hLd), ?_, by simp, ?_, b3, fun hq => ?_⟩
      · intro i hi
        rcases List.mem_cons.1 hi with rfl | hi
        · exact ⟨Nat.lt_of_lt_of_le hid x3.len, by rw [x3.node hid]; exact hg, hidB⟩
        · exact g3 i hi
      · intro i hi T
        simp only [List.length_cons, Nat.add_sub_cancel]
        by_cases ht : tops = []
        · subst ht
          have : ids = [] := by
            simp only [bottoms, Option.some.injEq, Prod.mk.injEq] at e3
            exact e3.1.symm
          subst this
          simp only [List.getLast?_singleton, Option.some.injEq] at hi
          subst hi
          have ht0 : tares.drop 1 = [] := by
            rw [List.drop_eq_nil_iff]; simp only [List.length_cons, List.length_nil] at hlen; omega
          rw [x3.value hwx T hid, hv T, htare T, ht0]
          simp [topsVal, tareVal, Nat.add_assoc]
        · have hi' : ids.getLast? = some i := by
            rw [List.getLast?_cons] at hi
            cases hl : ids.getLast? with
            | none => exact absurd (List.getLast?_eq_none_iff.1 hl) (ne3 ht)
            | some j => rw [hl] at hi; exact hi
          rw [v3 i hi' T]
          have hlp : 1 ≤ tops.length := List.length_pos_iff.2 ht
          rw [htare T, topsVal, show carry db T last + (csum db T cons + 2 * topsVal db T tops) +
            (tareVal T (tares.take 1) + 2 * tareVal T (tares.drop 1)) =
            (carry db T last + csum db T cons + tareVal T (tares.take 1)) +
              2 * (topsVal db T tops + tareVal T (tares.drop 1)) by omega, level_div _ _ _ hlp]
          rw [topsVal_ext hxx hw T hfc]
          show (value dbx T id / 2 + _ + _) / _ = _
          rw [hv T, Nat.add_assoc (_ / 2)]
      · have hnot : ¬ (queueEmpty = true ∧ last = none) := by
          rintro ⟨h1, h2⟩
          rcases hq with h | h
          · rw [h1] at h; cases h
          · exact h h2
        obtain ⟨l1, l2, l3, l5, l4⟩ := hlink.resolve_left hnot
        have hs2' := hs2.resolve_left hnot
        subst hs2'
        obtain ⟨k1, k2, k4, k5, k9, u, k6, k7, k8⟩ := k3 (Or.inr (by simp))
        have hu : u = 0 := k7 (by simp)
        subst hu
        refine ⟨by simpa using k1, ?_, ?_, ⟨l3.ext x3 hwx, by simpa using k5⟩, ?_, 0, by simp at k6 ⊢; omega, fun _ => rfl, fun T => ?_⟩
        · intro i hi
          rcases List.mem_cons.1 hi with rfl | hi
          · exact l2
          · exact Nat.le_trans hxx.len (k2 i hi)
        · refine List.nodup_cons.2 ⟨fun hm => ?_, k4⟩
          have := k2 id hm; omega
        · intro i hi
          rcases List.mem_cons.1 hi with rfl | hi
          · have h9 : leftCon db' i = leftCon dbx i := by unfold leftCon; rw [x3.node hid]
            have hlt := leftCon_child hwx l3
            rw [h9]
            intro hm
            rcases List.mem_append.1 hm with hm | hm
            · exact l5 hm
            · rcases List.mem_cons.1 hm with hm | hm
              · omega
              · have := k2 _ hm; omega
          · have := k9 i hi
            simpa using this
        · have h8 := k8 T
          rw [topsVal_ext hxx hw T hfc] at h8
          have h9 : leftCon db' id = leftCon dbx id := by unfold leftCon; rw [x3.node hid]
          rw [htare T, topsVal, leftSum, h9, x3.conVal hwx T (leftCon_link l3).1.id, l4 T]
          simp only [List.take_zero, tareVal, pow_zero, Nat.zero_add, Nat.one_mul] at h8 ⊢
          omega
    cases last with
    | some x =>
      obtain ⟨lastId, off⟩ := x
      obtain ⟨hl1, hl2, hl3, hl4⟩ := hlast _ rfl
      simp only at hl1 hl2 hl3 hl4
      subst hl3
      simp only
      have hu := half_unit (db := db2) (id := lastId) (Nat.lt_of_lt_of_le hl1 x12.len) (by rw [x12.node hl1]; exact hl2)
      obtain ⟨o1, o2⟩ := internal_unit_ok f2.1.1 hu.1
      have h3 := internal_insert w2 f2.1.1.id hu.1.id o1
      have hin := insert_inner_id db2 _ (internal_shape top ⟨lastId, 0, 2, 1, none⟩ db2)
      simp only at h3
      generalize db2.insert _ = r3 at h3 hin ⊢
      obtain ⟨id, db3⟩ := r3
      obtain ⟨b1, b2, b3, b4, b5⟩ := h3
      simp only at b1 b2 b3 b4 b5 hin ⊢
      obtain ⟨hid, hnodes⟩ := hin
      subst hid
      obtain ⟨lits, dp, nl, hun⟩ := unit_of_shape (internal_shape top ⟨lastId, 0, 2, 1, none⟩ db2) o2
      have hlc : leftCon db3 db2.nodes.length = top := by unfold leftCon; rw [b3, hun]
      refine key db3 _ b1 (ExtD.weaken (x12.trans (b2.mono (by simp)))) b4 (by rw [b3]; exact o2)
        (fun h => absurd (sB.lt _ h) (by omega)) (sB.push hnodes o2 (fun l r h => by
          rw [internal_shape] at h; cases h; exact ⟨tB, hl4⟩)) (fun T => ?_) (Or.inr ⟨s0.bucket b1 hnodes (internal_shape _ _ _) o2, x12.len, ?_, by rw [hlc]; exact t0, fun T => ?_⟩)
      · rw [b5 T, vt T, hu.2 T, x12.value hw T hl1]
        show _ = value db T lastId / 2 + _ + _
        omega
      · exact ⟨lits, dp, nl, _, _, by rw [b3, hun], full_ext b2 f2.1, rfl⟩
      · rw [hlc, b2.conVal w2 T f2.1.1.id, vt T]
    | none =>
      simp only
      by_cases hskip : (!tares.isEmpty && db2.conLen top == 1) = true
      · rw [if_pos hskip]
        simp only [Bool.and_eq_true, Bool.not_eq_true', beq_iff_eq] at hskip
        have hte : tares ≠ [] := by intro h; rw [h] at hskip; simp at hskip
        have hc0 : cons = [] := by
          by_contra hcc
          have h1 := csum_pos hcc fun c hc => (hfull cons (by simp) c hc).1
          have h2 := conVal_le_conLen w2 (fun _ => true) f2.1.1
          rw [vt, hskip.2] at h2
          obtain ⟨t, ts, rfl⟩ := List.exists_cons_of_ne_nil hte
          simp [tareVal] at h2
          omega
        have hlp : 1 ≤ tops.length := by
          rw [Nat.one_le_iff_ne_zero]
          intro h
          exact hcne (List.length_eq_zero_iff.1 h) hc0
        obtain ⟨ids, db', e3, w3, x3, g3, ne3, v3, b3, k3⟩ := ih (tares.drop 1) none ids0 db2 w2 sB s0 hnext (fun cs hcs c hc => by
            obtain ⟨a1, a2, a3⟩ := hfull cs (by simp [hcs]) c hc
            exact ⟨pos_ext x12 hw a1, a2, a3⟩) hnl
          (by intro x hx; cases hx)
        refine ⟨ids, db', e3, w3, (ExtD.weaken (x12.mono hLt)).trans (x3.mono hLd), g3, fun _ => ne3 (List.length_pos_iff.1 hlp), ?_, b3, fun hq => ?_⟩
        · intro i hi T
          rw [v3 i hi T, topsVal_ext x12 hw T hfc]
          simp only [List.length_cons, Nat.add_sub_cancel]
          have hle : csum db T cons + tareVal T (tares.take 1) ≤ 1 := by
            rw [← vt T, ← hskip.2]; exact conVal_le_conLen w2 T f2.1.1
          rw [htare T, topsVal, show carry db T none + (csum db T cons + 2 * topsVal db T tops) +
              (tareVal T (tares.take 1) + 2 * tareVal T (tares.drop 1)) =
              (csum db T cons + tareVal T (tares.take 1)) +
                2 * (topsVal db T tops + tareVal T (tares.drop 1)) from by simp only [carry]; omega, level_div _ _ _ hlp]
          simp only [carry]
          congr 1; omega
        · obtain ⟨k1, k2, k4, k5, k9, u, k6, k7, k8⟩ := k3 hq
          refine ⟨k1, fun i hi => Nat.le_trans x12.len (k2 i hi), k4, k5, k9, u + 1, by simp; omega, fun h => absurd rfl h, fun T => ?_⟩
          have h8 := k8 T
          rw [topsVal_ext x12 hw T hfc] at h8
          obtain ⟨t, ts, rfl⟩ := List.exists_cons_of_ne_nil hte
          subst hc0
          simp only [List.drop_succ_cons, List.drop_zero, List.take_succ_cons, tareVal, topsVal, csum, List.map_nil, List.sum_nil, Nat.zero_add] at h8 ⊢
          rw [Nat.pow_succ, Nat.mul_comm (2 ^ u) 2, Nat.mul_assoc]
          omega
      · rw [if_neg hskip]
        by_cases hqe : queueEmpty = true
        · rw [if_pos hqe]
          have hoff : top.offset = 0 := by rw [f2.1.2]; rfl
          rw [hoff]
          refine key db2 top.id w2 (ExtD.weaken x12) f2.1.1.id f2.1.1.notGeneral tB sB (fun T => ?_) (Or.inl ⟨hqe, rfl⟩)
          rw [← FullCon.val f2.1 T, vt T]; simp [carry]
        · rw [if_neg hqe]
          have h3 := insert_dummy w2
          have sB3 := sB.insert (n := .dummy) rfl (fun l r h => by cases h)
          have s03 := s0.insert (n := .dummy) rfl (fun l r h => by cases h)
          simp only at h3
          generalize db2.insert .dummy = r3 at h3 sB3 s03 ⊢
          obtain ⟨dm, db3⟩ := r3
          obtain ⟨a1, a2, a3, a4⟩ := h3
          simp only at a1 a2 a3 a4 sB3 s03 ⊢
          have hd : UnitCon db3 (NodeCon.full dm) := full_unit a4 (by rw [a3]; rfl)
          have ht := full_ext a2 f2.1
          obtain ⟨o1, o2⟩ := internal_unit_ok ht.1 hd
          have h4 := internal_insert a1 ht.1.id hd.id o1
          have hin := insert_inner_id db3 _ (internal_shape top (NodeCon.full dm) db3)
          simp only at h4
          generalize db3.insert _ = r4 at h4 hin ⊢
          obtain ⟨id, db4⟩ := r4
          obtain ⟨b1, b2, b3, b4, b5⟩ := h4
          simp only at b1 b2 b3 b4 b5 hin ⊢
          obtain ⟨hid, hnodes⟩ := hin
          subst hid
          obtain ⟨lits, dp, nl, hun⟩ := unit_of_shape (internal_shape top (NodeCon.full dm) db3) o2
          have hlc : leftCon db4 db3.nodes.length = top := by unfold leftCon; rw [b3, hun]
          refine key db4 _ b1 (((ExtD.weaken x12).trans ((a2.imp fun _ => by simpa using hqe).mono (by simp))).trans (ExtD.weaken (b2.mono (by simp)))) b4
            (by rw [b3]; exact o2) (fun h => absurd (sB3.lt _ h) (by omega)) (sB3.push hnodes o2 (fun l r h => by
              rw [internal_shape] at h; cases h
              refine ⟨tB, fun hm => ?_⟩
              obtain ⟨l, r, h⟩ := sB3.inner _ hm
              rw [show (NodeCon.full dm).id = dm from rfl, a3] at h
              cases h)) (fun T => ?_) (Or.inr ⟨s03.bucket b1 hnodes (internal_shape _ _ _) o2, Nat.le_trans x12.len a2.len, ?_, by rw [hlc]; exact t0, fun T => ?_⟩)
          · rw [b5 T, a2.conVal w2 T f2.1.1.id, vt T, (dummy_con a1 (c := NodeCon.full dm) a3 T).1]
            simp [carry]
          · refine ⟨lits, dp, nl, _, _, by rw [b3, hun], full_ext b2 ht, ?_⟩
            show db4.node dm = .dummy
            rw [b2.node a4]; exact a3
          · rw [hlc, b2.conVal a1 T ht.1.id, a2.conVal w2 T f2.1.1.id, vt T]

theorem pow2_of_isPow2 {d : Nat} (h : isPow2 d = true) (hd : 0 < d) : d = 2 ^ (digits d 2 - 1) := by
  have h1 := digits_le d 2 (by omega) hd
  have h2 := digits_lt d 2 (by omega)
  have h0 := digits_pos d 2 (by omega)
  generalize hk : digits d 2 - 1 = k at h1 ⊢
  have h3 : digits d 2 = k + 1 := by omega
  rw [h3, Nat.pow_succ] at h2
  rcases Nat.lt_or_ge (2 ^ k) d with h4 | h4
  · exfalso
    have e : (d &&& (d - 1)).testBit k = true := by
      have t : ∀ x, 2 ^ k ≤ x → x < 2 ^ k * 2 → x.testBit k = true := by
        intro x a b
        rw [Nat.testBit_eq_decide_div_mod_eq]
        have : x / 2 ^ k = 1 := Nat.div_eq_of_lt_le (by omega) (by omega)
        rw [this]; rfl
      rw [Nat.testBit_and, t d h1 h2, t (d - 1) (by omega) (by omega)]; rfl
    have : d &&& (d - 1) = 0 := by simpa [isPow2] using h
    rw [this] at e
    simp at e
  · omega

/-- A divisor that `set_precision` accepts. -/
theorem precision_pow {d : Nat} (h : d ≤ 1 ∨ isPow2 d = true) : ∀ w, 0 < w → (d ≤ w ↔ 2 ^ (digits d 2 - 1) ≤ w) := by
  intro w hw
  by_cases h1 : d ≤ 1
  · have : 2 ^ (digits d 2 - 1) = 1 := by
      rcases (by omega : d = 0 ∨ d = 1) with rfl | rfl <;> decide
    omega
  · rcases h with h | h
    · exact absurd h h1
    · rw [← pow2_of_isPow2 h (by omega)]

theorem le_maxWeight {db : Db} {q : WeightQ} (hq : QOK db q) : ∀ e ∈ q, e.1 ≤ q.maxWeight := by
  intro e he
  cases q with
  | nil => cases he
  | cons x q =>
    rcases List.mem_cons.1 he with rfl | he
    · exact Nat.le_refl _
    · exact Nat.le_of_lt ((List.pairwise_cons.1 hq.sorted).1 e he)

/-- What the bottom buckets and the remaining queue look like if some weights are not part of the structure yet. -/
structure Grow (db : Db) (s : Structure) (q : WeightQ) (levels : Nat) (D : (Lit → Bool) → Nat) : Prop where
  sep : Sep s.bottomBuckets db
  avoid : ∀ e ∈ q, ∀ c ∈ e.2, c.id ∉ s.bottomBuckets
  nodup : s.bottomBuckets.Nodup
  ne : s.bottomBuckets ≠ []
  chain : Chain db none s.bottomBuckets.reverse
  left : ∀ b ∈ s.bottomBuckets, (leftCon db b).id ∉ s.bottomBuckets
  split : ∃ u, u + s.bottomBuckets.length = levels ∧
    ∀ T, D T + tareVal T s.tares = tareVal T (s.tares.take u) + 2 ^ u * leftSum db T s.bottomBuckets.reverse

/-- Building the structure. -/
theorem buildStructure_spec {g : Prop} {VM : Type} [ManageVars VM] [LawfulVM VM] (topmost : Bool) {q : WeightQ} {precDiv : Nat} {db : Db} (hw : db.WF)
    (hq : QOK db q) (hd : precDiv ≤ 1 ∨ isPow2 precDiv = true) (hmax : ∃ e ∈ q, precDiv ≤ e.1) (vm : VM) {B : List Nat} (hB : SepD g B db)
    (hqB : ∀ e ∈ q, ∀ c ∈ e.2, c.id ∉ B) :
    ∃ s q' db' vm', buildStructure topmost q precDiv db vm = some (s, q', db', vm') ∧ db'.WF ∧ ExtD (q' ≠ []) s.tares db db' ∧ QOK db' q' ∧
      (∀ e ∈ q', e.1 < 2 ^ (digits precDiv 2 - 1)) ∧ s.precDiv = precDiv ∧ s.root < db'.nodes.length ∧
      (db'.node s.root).isGeneral = false ∧
      s.tares = (List.range s.tares.length).map (fun i => Lit.pos (ManageVars.nUsed vm + i)) ∧
      ManageVars.nUsed vm' = ManageVars.nUsed vm + s.tares.length ∧
      (s.tares.length + (if topmost then 1 else 0) + (digits precDiv 2 - 1) = digits q.maxWeight 2) ∧
      (∀ T, value db' T s.root = (qsum (· / 2 ^ (digits precDiv 2 - 1)) db T q + tareVal T s.tares) /
        2 ^ (s.tares.length + (if topmost then 1 else 0) - 1)) ∧
      (∀ (f : Nat → Nat) T, f 0 = 0 → qsum f db' T q' = qsum (fun w => f (w % 2 ^ (digits precDiv 2 - 1))) db T q) ∧
      SepD g B db' ∧ (∀ e ∈ q', ∀ c ∈ e.2, c.id ∉ B) ∧ s.root ∉ B ∧
      (q' ≠ [] → g → Grow db' s q' (s.tares.length + (if topmost then 1 else 0)) (qsum (· / 2 ^ (digits precDiv 2 - 1)) db · q) ∧
        ∀ b ∈ s.bottomBuckets, db.nodes.length ≤ b) := by
  have hpd := precision_pow hd
  generalize hp : digits precDiv 2 - 1 = p at hpd
  have hne : q ≠ [] := by rintro rfl; obtain ⟨e, he, -⟩ := hmax; cases he
  obtain ⟨⟨mw, mc⟩, qt, rfl⟩ := List.exists_cons_of_ne_nil hne
  have hm0 : 0 < mw := hq.pos (mw, mc) (by simp)
  have hle := le_maxWeight hq
  have hmw : WeightQ.maxWeight ((mw, mc) :: qt) = mw := rfl
  rw [hmw] at hle
  have hpm : 2 ^ p ≤ mw := by
    obtain ⟨e, he, h⟩ := hmax
    exact (hpd mw hm0).1 (Nat.le_trans h (hle e he))
  have hd1 := digits_le mw 2 (by omega) hm0
  have hd2 := digits_lt mw 2 (by omega)
  have hd0 := digits_pos mw 2 (by omega)
  unfold buildStructure
  rw [hmw, hp]
  generalize hbl : digits mw 2 = bl at hd1 hd2 hd0 ⊢
  have hpb : p < bl := by
    rcases Nat.lt_or_ge p bl with h | h
    · exact h
    · have := Nat.pow_le_pow_right (n := 2) (by omega) h; omega
  simp only
  rw [if_neg (by simp; omega)]
  have hfull0 : ∀ cs ∈ List.replicate (bl - p) ([] : List NodeCon), ∀ c ∈ cs, PosCon db c := by
    intro cs hcs c hc
    rw [List.eq_of_mem_replicate hcs] at hc
    cases hc
  by_cases hb1 : bl = 1 ∧ topmost = true
  · obtain ⟨hb1, htop⟩ := hb1
    subst hb1
    subst htop
    have hp0 : p = 0 := by omega
    subst hp0
    have hmw1 : mw = 1 := by simp at hd2; omega
    subst hmw1
    have hqt : qt = [] := by
      cases qt with
      | nil => rfl
      | cons x qt =>
        have h1 := (List.pairwise_cons.1 hq.sorted).1 x (by simp)
        have h2 := hq.pos x (by simp)
        simp only at h1; omega
    subst hqt
    obtain ⟨c, db1, e1, w1, x1, f1, v1⟩ := mergeBalanced_pos hw (hq.ne (1, mc) (by simp))
          (hq.full (1, mc) (by simp))
    obtain ⟨s1, t1⟩ := hB.merge hw e1 (hq.con (1, mc) (by simp)) (hqB (1, mc) (by simp))
    have hprec : precDiv ≤ 1 := (hpd 1 (by omega)).2 (by simp)
    have e2 : distribute precDiv 0 (1 + 1) [(1, mc)] (List.replicate (1 - 0) []) db = some ([], [[c]], db1) := by
      unfold distribute
      rw [if_pos hprec, e1]
      rfl
    rw [e2]
    simp only [and_self, if_true]
    refine ⟨_, _, _, _, rfl, w1, ExtD.weaken x1, ⟨by simp, by simp, by simp, by simp⟩, by simp, rfl, f1.1.1.id, f1.1.1.notGeneral, rfl, rfl,
      by simp, ?_, fun f T hf => by simp [qsum, Nat.mod_one, hf], s1, by simp, t1, fun h _ => absurd rfl h⟩
    intro T
    show value db1 T c.id = _
    rw [← FullCon.val f1.1 T, v1 T]
    simp [qsum, tareVal, csum]
  · obtain ⟨q', tops, db1, e1, w1, x1, o1, l1, n1, f1, v1, -, h1, r1, s1⟩ := distribute_spec hpd (mw + 1) _
      (List.replicate (bl - p) []) db hw hq (n := bl - p) (fun e he => by
        have := hle e he
        rw [show bl - p + p = bl by omega]; omega) (by simp) hfull0
    obtain ⟨sB, qB, tB⟩ := s1 g B hB hqB (by
      intro cs hcs c hc
      rw [List.eq_of_mem_replicate hcs] at hc
      cases hc)
    rw [e1]
    simp only
    rw [if_neg hb1]
    have hnv := Am1.newVars_spec (VM := VM) (bl - p - (if topmost then 1 else 0)) vm
    generalize hτ : bl - p - (if topmost then 1 else 0) = τ at hnv ⊢
    generalize Am1.newVars τ vm = r at hnv ⊢
    obtain ⟨tv, vm'⟩ := r
    simp only at hnv ⊢
    obtain ⟨a1, a2⟩ := hnv
    have htl : tv.length = τ := by rw [a1]; simp
    have hlev : τ + (if topmost then 1 else 0) = bl - p := by
      rw [← hτ]
      cases topmost <;> simp
      omega
    obtain ⟨ids, db2, e2, w2, x2, g2, ne2, v2, b2, k2⟩ := bottoms_spec q'.isEmpty B tops (tv.map Lit.pos) none [] db1 w1 sB (SepD.nil sB.plainG)
      (by rw [n1, List.length_map, htl]; cases topmost <;> simp at hlev <;> omega) (fun cs hcs c hc => ⟨f1 cs hcs c hc, tB cs hcs c hc, by simp⟩) (by
        intro cs hcs
        have h2 := h1 (mw, mc) rfl hpm
        simp only [hbl] at h2
        rw [List.getLast?_eq_getElem?, n1, show bl - p - 1 = bl - 1 - p by omega] at hcs
        rw [List.getD_eq_getElem?_getD, hcs] at h2
        exact h2) (by intro x hx; cases hx)
    rw [e2]
    have hids : ids ≠ [] := ne2 (by intro h; rw [h] at n1; simp at n1; omega)
    have hroot : ids.getLast? = some (Structure.root ⟨ids.reverse, tv.map Lit.pos, precDiv⟩) := by
      unfold Structure.root
      simp only [List.headD_eq_head?_getD, List.head?_reverse]
      cases hl : ids.getLast? with
      | none => exact absurd (List.getLast?_eq_none_iff.1 hl) hids
      | some j => rfl
    have hg := g2 _ (List.mem_of_getLast? hroot)
    refine ⟨_, _, _, _, rfl, w2, (ExtD.weaken (x1.mono (by simp))).trans (x2.imp fun h => by simpa using h), o1.ext x2 w1, l1, rfl, hg.1, hg.2.1, ?_, ?_, ?_,
      fun T => ?_, fun f T hf => ?_, b2, qB, hg.2.2, fun hqn hgg => ?_⟩
    · simp only [List.length_map, htl]
      rw [a1]
      simp [Function.comp_def]
    · simp only [List.length_map, htl]; exact a2
    · simp only [List.length_map, htl, hlev]
      omega
    · rw [v2 _ hroot T, v1 T, topsVal_empty]
      simp only [carry, Nat.zero_add, List.length_map, htl, n1, hlev]
    · rw [qsum_ext x2 w1 f T o1.con, r1 f T hf]
    · obtain ⟨k3, k4, k5, k6, k9, u, k7, -, k8⟩ := k2 (Or.inl (by simpa using hqn))
      refine ⟨⟨?_, ?_, List.pairwise_reverse.2 (k5.imp Ne.symm), by simpa using hids, by simpa using k6, by simpa using k9, u, ?_, fun T => ?_⟩, ?_⟩
      · have : SepD g ids db2 := by simpa using k3
        exact ⟨fun _ => this.plainG hgg, fun b hb => this.lt b (by simpa using hb), fun b hb => this.inner b (by simpa using hb),
          fun i l r h hi => by
            have := this.avoid i l r h (by simpa using hi)
            simpa using this⟩
      · intro e he c hc hm
        have := k4 c.id (by simpa using hm)
        exact absurd (o1.con e he c hc).1.id (by omega)
      · simp only [List.length_map, htl, List.length_reverse, hlev]; omega
      · have := k8 T
        rw [v1 T, topsVal_empty, Nat.zero_add] at this
        simpa using this
      · intro b hb
        exact Nat.le_trans x1.len (k4 b (by simpa using hb))

end Dpw
end RustSat
