import Verif.Lemmas.AssignIter
import Verif.Lemmas.Totalizer
import Verif.Lemmas.Gte
/-
Every node with children of the database of a totalizer is below its root.
-/
namespace RustSat
namespace TotDb

/-- A node is the child of another one. -/
def HasPar (db : Db) (i : Nat) : Prop := ∃ j l r, (db.node j).shape = .inner l r ∧ (l.id = i ∨ r.id = i)

/-- Nodes with children are children of other nodes, or in `A`. -/
def CovBy (db : Db) (A : Nat → Prop) : Prop := ∀ i, Inner db i → HasPar db i ∨ A i

/-- Building on the nodes in `A`, nodes were added; those in `A'` are not used yet. -/
structure Kept (db db' : Db) (A A' : Nat → Prop) : Prop where
  node : ∀ i, i < db.nodes.length → db'.node i = db.node i
  real : AllReal db → AllReal db'
  cov : ∀ i, Inner db' i → HasPar db' i ∨ A' i ∨ (Inner db i ∧ ¬ A i)

theorem Inner.lt {db : Db} {i : Nat} (h : Inner db i) : i < db.nodes.length :=
  Db.node_lt (by obtain ⟨l, r, h⟩ := h; intro hn; rw [hn] at h; cases h)

theorem Kept.par {db db' : Db} {A A' : Nat → Prop} (h : Kept db db' A A') {i : Nat} (hp : HasPar db i) : HasPar db' i := by
  obtain ⟨j, l, r, hs, e⟩ := hp
  exact ⟨j, l, r, by rw [h.node j (Inner.lt ⟨l, r, hs⟩)]; exact hs, e⟩

theorem Kept.refl (db : Db) (A : Nat → Prop) : Kept db db A A :=
  ⟨fun _ _ => rfl, id, fun i hi => by
    by_cases h : A i
    · exact Or.inr (Or.inl h)
    · exact Or.inr (Or.inr ⟨hi, h⟩)⟩

theorem Kept.mono {db db' : Db} {A A' B : Nat → Prop} (h : Kept db db' A A') (hb : ∀ i, A' i → B i) : Kept db db' A B :=
  ⟨h.node, h.real, fun i hi => (h.cov i hi).imp id (Or.imp (hb i) id)⟩

theorem Kept.anti {db db' : Db} {A A' B : Nat → Prop} (h : Kept db db' A A') (hb : ∀ i, B i → A i) : Kept db db' B A' :=
  ⟨h.node, h.real, fun i hi => (h.cov i hi).imp id (Or.imp id fun x => ⟨x.1, fun y => x.2 (hb i y)⟩)⟩

theorem Kept.frame {db db' : Db} {A A' : Nat → Prop} (h : Kept db db' A A') (X : Nat → Prop) :
    Kept db db' (fun i => A i ∨ X i) (fun i => A' i ∨ X i) :=
  ⟨h.node, h.real, fun i hi => by
    rcases h.cov i hi with h | h | ⟨h1, h2⟩
    · exact Or.inl h
    · exact Or.inr (Or.inl (Or.inl h))
    · by_cases hx : X i
      · exact Or.inr (Or.inl (Or.inr hx))
      · exact Or.inr (Or.inr ⟨h1, fun h => h.elim h2 hx⟩)⟩

theorem Inner.of_node {a b : Db} {i : Nat} (h : b.node i = a.node i) (hi : Inner b i) : Inner a i := by
  obtain ⟨l, r, hs⟩ := hi
  exact ⟨l, r, by rw [← h]; exact hs⟩

/-- Composition; the intermediate set. -/
theorem Kept.trans {a b c : Db} {A B C : Nat → Prop} (h : Kept a b A B) (h' : Kept b c B C) (hl : a.nodes.length ≤ b.nodes.length) : Kept a c A C :=
  ⟨fun i hi => (h'.node i (by omega)).trans (h.node i hi), fun hr => h'.real (h.real hr), fun i hi => by
    rcases h'.cov i hi with h1 | h1 | ⟨h1, h2⟩
    · exact Or.inl h1
    · exact Or.inr (Or.inl h1)
    · rcases h.cov i h1 with h3 | h3 | h3
      · exact Or.inl (h'.par h3)
      · exact absurd h3 h2
      · exact Or.inr (Or.inr h3)⟩

theorem Kept.covers {db db' : Db} {A A' : Nat → Prop} (h : Kept db db' A A') (hc : CovBy db A) : CovBy db' A' := by
  intro i hi
  rcases h.cov i hi with h1 | h1 | ⟨h1, h2⟩
  · exact Or.inl h1
  · exact Or.inr h1
  · rcases hc i h1 with h3 | h3
    · exact Or.inl (h.par h3)
    · exact absurd h3 h2

theorem node_append (db : Db) (n : Node) (lk : List (Lit × Nat)) (dm : Option Nat) {i : Nat} :
    (i < db.nodes.length → (⟨db.nodes ++ [n], lk, dm⟩ : Db).node i = db.node i) ∧
    (i = db.nodes.length → (⟨db.nodes ++ [n], lk, dm⟩ : Db).node i = n) ∧
    (db.nodes.length < i → (⟨db.nodes ++ [n], lk, dm⟩ : Db).node i = .dummy) := by
  unfold Db.node
  simp only [List.getD_eq_getElem?_getD]
  refine ⟨fun h => by rw [List.getElem?_append_left h], fun h => by subst h; simp, fun h => by rw [List.getElem?_eq_none (by simp; omega)]; rfl⟩

theorem kept_append {db : Db} {n : Node} {lk : List (Lit × Nat)} {dm : Option Nat} (hn : n ≠ .dummy) {A A' : Nat → Prop}
    (h : ∀ l r, n.shape = .inner l r → (∀ i, A i → A' i ∨ l.id = i ∨ r.id = i) ∧ A' db.nodes.length)
    (h' : (∀ l r, n.shape ≠ .inner l r) → ∀ i, A i → A' i) : Kept db ⟨db.nodes ++ [n], lk, dm⟩ A A' := by
  refine ⟨fun i hi => (node_append db n lk dm).1 hi, fun hr i hi => ?_, fun i hi => ?_⟩
  · simp only [List.length_append, List.length_cons, List.length_nil] at hi
    rcases Nat.lt_or_ge i db.nodes.length with h1 | h1
    · rw [(node_append db n lk dm).1 h1]; exact hr i h1
    · rw [(node_append db n lk dm).2.1 (by omega)]; exact hn
  · by_cases hin : ∃ l r, n.shape = .inner l r
    · obtain ⟨l, r, hs⟩ := hin
      obtain ⟨h1, h2⟩ := h l r hs
      rcases Nat.lt_trichotomy i db.nodes.length with h3 | h3 | h3
      · by_cases ha : A i
        · rcases h1 i ha with h4 | h4
          · exact Or.inr (Or.inl h4)
          · exact Or.inl ⟨db.nodes.length, l, r, by rw [(node_append db n lk dm).2.1 rfl]; exact hs, h4⟩
        · exact Or.inr (Or.inr ⟨hi.of_node ((node_append db n lk dm).1 h3), ha⟩)
      · subst h3; exact Or.inr (Or.inl h2)
      · obtain ⟨l', r', hx⟩ := hi
        rw [(node_append db n lk dm).2.2 h3] at hx; cases hx
    · have hno : ∀ l r, n.shape ≠ .inner l r := fun l r h => hin ⟨l, r, h⟩
      rcases Nat.lt_trichotomy i db.nodes.length with h3 | h3 | h3
      · by_cases ha : A i
        · exact Or.inr (Or.inl (h' hno i ha))
        · exact Or.inr (Or.inr ⟨hi.of_node ((node_append db n lk dm).1 h3), ha⟩)
      · obtain ⟨l', r', hx⟩ := hi
        rw [(node_append db n lk dm).2.1 h3] at hx; exact absurd hx (hno _ _)
      · obtain ⟨l', r', hx⟩ := hi
        rw [(node_append db n lk dm).2.2 h3] at hx; cases hx

/-- Merging two connections uses them. -/
theorem kept_mergeCons (db : Db) (a b : NodeCon) (X : Nat → Prop) :
    Kept db (mergeCons db a b).2 (fun i => (i = a.id ∨ i = b.id) ∨ X i) (fun i => i = (mergeCons db a b).1.id ∨ X i) ∧
      db.nodes.length ≤ (mergeCons db a b).2.nodes.length := by
  rw [mergeCons_id]
  have key : ∀ (l r : NodeCon), l.id = a.id → r.id = b.id → Kept db (db.insert (Node.internal l r db)).2 (fun i => (i = a.id ∨ i = b.id) ∨ X i)
      (fun i => i = db.nodes.length ∨ X i) ∧ db.nodes.length ≤ (db.insert (Node.internal l r db)).2.nodes.length := by
    intro l r hl hr
    have hs := internal_shape l r db
    generalize hn : Node.internal l r db = n at hs
    cases n with
    | leaf => cases hs
    | dummy => cases hs
    | unit =>
      simp only [Db.insert, List.length_append]
      refine ⟨kept_append (by simp) (fun l' r' h => ?_) (fun h => absurd hs (h _ _)), by omega⟩
      rw [hs] at h; cases h
      refine ⟨fun i hi => ?_, Or.inl rfl⟩
      rcases hi with (hi | hi) | hi
      · exact Or.inr (Or.inl (by rw [hl, hi]))
      · exact Or.inr (Or.inr (by rw [hr, hi]))
      · exact Or.inl (Or.inr hi)
    | general =>
      simp only [Db.insert, List.length_append]
      refine ⟨kept_append (by simp) (fun l' r' h => ?_) (fun h => absurd hs (h _ _)), by omega⟩
      rw [hs] at h; cases h
      refine ⟨fun i hi => ?_, Or.inl rfl⟩
      rcases hi with (hi | hi) | hi
      · exact Or.inr (Or.inl (by rw [hl, hi]))
      · exact Or.inr (Or.inr (by rw [hr, hi]))
      · exact Or.inl (Or.inr hi)
  unfold mergeCons
  by_cases h : a.multiplier > 1 ∧ a.multiplier = b.multiplier
  · rw [if_pos h]; exact key _ _ rfl rfl
  · rw [if_neg h]; exact key _ _ rfl rfl

/-- A database with additions. -/
structure Built (db db' : Db) (A A' : Nat → Prop) : Prop where
  kept : Kept db db' A A'
  len : db.nodes.length ≤ db'.nodes.length

theorem Built.refl (db : Db) (A : Nat → Prop) : Built db db A A := ⟨Kept.refl db A, Nat.le_refl _⟩
theorem Built.trans {a b c : Db} {A B C : Nat → Prop} (h : Built a b A B) (h' : Built b c B C) : Built a c A C :=
  ⟨h.kept.trans h'.kept h.len, Nat.le_trans h.len h'.len⟩
theorem Built.mono {db db' : Db} {A A' B : Nat → Prop} (h : Built db db' A A') (hb : ∀ i, A' i → B i) : Built db db' A B := ⟨h.kept.mono hb, h.len⟩
theorem Built.anti {db db' : Db} {A A' B : Nat → Prop} (h : Built db db' A A') (hb : ∀ i, B i → A i) : Built db db' B A' := ⟨h.kept.anti hb, h.len⟩
theorem Built.frame {db db' : Db} {A A' : Nat → Prop} (h : Built db db' A A') (X : Nat → Prop) :
    Built db db' (fun i => A i ∨ X i) (fun i => A' i ∨ X i) := ⟨h.kept.frame X, h.len⟩

/-- The first connections of blocks. -/
def heads (bs : List (List NodeCon)) (i : Nat) : Prop := ∃ b ∈ bs, ∃ c, b.head? = some c ∧ c.id = i

theorem heads_cons {c : NodeCon} {t : List NodeCon} {bs : List (List NodeCon)} {i : Nat} : heads ((c :: t) :: bs) i ↔ i = c.id ∨ heads bs i := by
  unfold heads
  simp only [List.mem_cons]
  constructor
  · rintro ⟨b, rfl | hb, c', h1, h2⟩
    · simp only [List.head?_cons, Option.some.injEq] at h1; subst h1; exact Or.inl h2.symm
    · exact Or.inr ⟨b, hb, c', h1, h2⟩
  · rintro (rfl | ⟨b, hb, c', h1, h2⟩)
    · exact ⟨_, Or.inl rfl, c, rfl, rfl⟩
    · exact ⟨b, Or.inr hb, c', h1, h2⟩

theorem heads_nil {bs : List (List NodeCon)} {i : Nat} : heads ([] :: bs) i ↔ heads bs i := by
  unfold heads
  simp only [List.mem_cons]
  constructor
  · rintro ⟨b, rfl | hb, c', h1, h2⟩
    · simp at h1
    · exact ⟨b, hb, c', h1, h2⟩
  · rintro ⟨b, hb, c', h1, h2⟩
    exact ⟨b, Or.inr hb, c', h1, h2⟩

theorem mergeLevel_built {pw prw lastRw : Nat}
    (hwidth : 0 < 2 * pw + prw % 2) (hlast : lastRw % 2 = prw % 2 ∨ pw = 0) :
    ∀ (fuel : Nat) (m : Nat) (bs : List (List NodeCon)) (db : Db) (done : List NodeCon) (k : Nat),
      bs.length = 2 * m → m ≤ fuel → 0 < k → Lens pw prw (2 * k - 1) bs →
      ∃ db' bs', mergeLevel (2 * pw + prw % 2) (prw / 2) lastRw fuel db (done ++ bs.flatten) done.length k =
          (db', done ++ bs'.flatten) ∧ bs'.length = m ∧
        Lens (2 * pw + prw % 2) (prw / 2) k bs' ∧ Built db db' (heads bs) (heads bs') := by
  intro fuel
  induction fuel with
  | zero =>
    intro m bs db done k hlen hm hk hL
    have hb : bs = [] := List.length_eq_zero_iff.1 (by omega)
    subst hb
    refine ⟨db, [], by simp [mergeLevel], by simp at hlen ⊢; omega, trivial, Built.refl _ _⟩
  | succ fuel ih =>
    intro m bs db done k hlen hm hk hL
    match bs, hlen with
    | [], hlen =>
      refine ⟨db, [], by simp [mergeLevel], by simp at hlen ⊢; omega, trivial, Built.refl _ _⟩
    | [_], hlen => simp at hlen; omega
    | b1 :: b2 :: bs, hlen =>
      obtain ⟨hb1, hb2, hL⟩ := hL
      rw [show 2 * k - 1 + 1 = 2 * k by omega] at hb2 hL
      rw [show 2 * k + 1 = 2 * (k + 1) - 1 by omega] at hL
      rw [segW_left pw prw k hk] at hb1
      rw [segW_right pw prw k hk] at hb2
      have hm' : bs.length = 2 * (m - 1) := by simp at hlen; omega
      have hm1 : 1 ≤ m := by simp at hlen; omega
      generalize hext : (if (lowBit k &&& (prw / 2)) ≠ 0 then 1 else 0) = e at hb2
      have he : e ≤ 1 := by rw [← hext]; split <;> omega
      have hpr : prw % 2 < 2 := Nat.mod_lt _ (by omega)
      have hfl : done ++ (b1 :: b2 :: bs).flatten = done ++ ((b1 ++ b2) ++ bs.flatten) := by simp
      rw [hfl, mergeLevel]
      have hlt : done.length < (done ++ ((b1 ++ b2) ++ bs.flatten)).length := by simp; omega
      rw [if_pos hlt]
      simp only
      by_cases ht1 : 2 * pw + prw % 2 + e = 1
      · rw [hext, if_pos ht1]
        have hl1 : b1.length = 1 := by omega
        have hl2 : b2.length = 0 := by omega
        have hb2n : b2 = [] := List.length_eq_zero_iff.1 hl2
        subst hb2n
        have := ih (m - 1) bs db (done ++ b1) (k + 1) hm' (by omega) (by omega) hL
        obtain ⟨db', bs', hr, hlen', hL', hB⟩ := this
        refine ⟨db', b1 :: bs', ?_, by simp; omega, ⟨?_, hL'⟩, ?_⟩
        · have : (done ++ b1).length = done.length + 1 := by simp [hl1]
          rw [this] at hr
          simpa [List.append_assoc] using hr
        · unfold segW; rw [hext]; omega
        · match b1, hl1 with
          | [x], _ =>
            have hf := hB.frame (· = x.id)
            refine (hf.mono fun i hi => heads_cons.2 hi.symm).anti fun i hi => ?_
            rcases heads_cons.1 hi with h | h
            · exact Or.inr h
            · exact Or.inl (heads_nil.1 h)
      · rw [hext, if_neg ht1]
        match b1, b2 with
        | [], _ => simp only [List.length_nil] at hb1; omega
        | _ :: _, [] => simp only [List.length_nil] at hb2; omega
        | lc :: t1, rc :: t2 =>
          have hroff : (if (2 * pw + prw % 2 + e) % 2 = 0 then (2 * pw + prw % 2 + e) / 2
              else (2 * pw + prw % 2 + e) / 2 + (if (lowBit ((k - 1) * 2 + 1) &&& lastRw) ≠ 0 then 1 else 0)) =
              (lc :: t1).length := by
            rw [hb1, show (k - 1) * 2 + 1 = 2 * (k - 1) + 1 by omega, lowBit_odd]
            by_cases hev : (2 * pw + prw % 2 + e) % 2 = 0
            · rw [if_pos hev]; omega
            · rw [if_neg hev]
              by_cases hl1 : lastRw % 2 = 1
              · rw [if_pos (one_and_ne.2 hl1)]; omega
              · rw [if_neg (fun h => hl1 (one_and_ne.1 h))]; omega
          rw [hroff]
          have hlc : (done ++ ((lc :: t1) ++ (rc :: t2) ++ bs.flatten)).getD done.length (NodeCon.full 0) = lc := by
            have := getD_append_cons done lc (t1 ++ (rc :: t2) ++ bs.flatten) (NodeCon.full 0)
            simpa [List.append_assoc] using this
          have hrc : (done ++ ((lc :: t1) ++ (rc :: t2) ++ bs.flatten)).getD (done.length + (lc :: t1).length)
              (NodeCon.full 0) = rc := by
            have := getD_append_cons (done ++ (lc :: t1)) rc (t2 ++ bs.flatten) (NodeCon.full 0)
            rw [List.length_append] at this
            simpa [List.append_assoc] using this
          rw [hlc, hrc]
          have hmb := kept_mergeCons db lc rc (heads bs)
          generalize mergeCons db lc rc = res at hmb ⊢
          obtain ⟨con, db1⟩ := res
          simp only at hmb ⊢
          have hset : (done ++ ((lc :: t1) ++ (rc :: t2) ++ bs.flatten)).set done.length con =
              (done ++ (con :: t1 ++ (rc :: t2))) ++ bs.flatten := by
            have := set_append_cons done lc con (t1 ++ (rc :: t2) ++ bs.flatten)
            simpa [List.append_assoc] using this
          rw [hset]
          have hst : done.length + (2 * pw + prw % 2 + e) = (done ++ (con :: t1 ++ (rc :: t2))).length := by
            simp only [List.length_append, List.length_cons] at hb1 hb2 ⊢; omega
          rw [hst]
          have := ih (m - 1) bs db1 (done ++ (con :: t1 ++ (rc :: t2))) (k + 1) hm' (by omega) (by omega) hL
          obtain ⟨db', bs', hr, hlen', hL', hB⟩ := this
          refine ⟨db', (con :: t1 ++ (rc :: t2)) :: bs', ?_, by simp; omega, ⟨?_, hL'⟩, ?_⟩
          · rw [hr]; simp [List.append_assoc]
          · unfold segW; rw [hext]
            simp only [List.length_append, List.length_cons] at hb1 hb2 ⊢; omega
          · have h1 : Built db db1 (heads ((lc :: t1) :: (rc :: t2) :: bs)) (fun i => heads bs i ∨ i = con.id) :=
              ((⟨hmb.1, hmb.2⟩ : Built _ _ _ _).mono fun i hi => hi.symm).anti fun i hi => by
                rcases heads_cons.1 hi with h | h
                · exact Or.inl (Or.inl h)
                · rcases heads_cons.1 h with h | h
                  · exact Or.inl (Or.inr h)
                  · exact Or.inr h
            exact (h1.trans (hB.frame (· = con.id))).mono fun i hi => heads_cons.2 hi.symm

theorem mergeLoop_built {n : Nat} (_hn : 0 < n) :
    ∀ (s fuel : Nat) (pw prw lastRw : Nat) (bs : List (List NodeCon)) (db : Db),
      iterLevel s (nextLevel (pw, prw)) = (n, 0) → s + 1 ≤ fuel → 0 < 2 * pw + prw % 2 →
      lastRw / 2 = prw / 2 → (lastRw = prw ∨ pw = 0) → bs.length = 2 * 2 ^ s → bs.flatten.length = n →
      Lens pw prw 1 bs →
      ∃ db' b, mergeLoop fuel db bs.flatten (2 * pw + prw % 2) (prw / 2) lastRw = (db', b) ∧
        b.length = n ∧ Built db db' (heads bs) (heads [b]) := by
  intro s
  induction s with
  | zero =>
    intro fuel pw prw lastRw bs db hit hf hw0 hl1 hl2 hlen hfl hL
    match fuel, hf with
    | fuel + 1, _ =>
      simp only [iterLevel, nextLevel, Prod.mk.injEq] at hit
      obtain ⟨e1, e2⟩ := hit
      rw [mergeLoop, if_pos (by omega)]
      have h := mergeLevel_built (pw := pw) (prw := prw) (lastRw := lastRw) hw0
        (hl2.elim (fun h => Or.inl (by rw [h])) Or.inr) bs.flatten.length 1 bs db [] 1 (by simpa using hlen)
        (by omega) (by omega) hL
      obtain ⟨db', bs', hr, hlen', hL', hB⟩ := h
      simp only [List.nil_append, List.length_nil] at hr
      rw [hr]
      simp only
      match bs', hlen' with
      | [b], _ =>
        have hbl : b.length = n := by
          have := hL'.1
          unfold segW at this
          rw [e1, e2] at this
          simpa using this
        have hout : ∀ l, mergeLoop fuel db' [b].flatten
            (((2 * pw + prw % 2) <<< 1) ||| (prw / 2 &&& 1)) ((prw / 2) >>> 1) l = (db', [b].flatten) := by
          intro l
          cases fuel with
          | zero => rfl
          | succ f =>
            rw [mergeLoop, if_neg]
            rw [lor_low]
            simp only [List.flatten_cons, List.flatten_nil, List.append_nil]
            omega
        rw [hout]
        exact ⟨db', b, by simp, hbl, hB⟩
  | succ s ih =>
    intro fuel pw prw lastRw bs db hit hf hw0 hl1 hl2 hlen hfl hL
    match fuel, hf with
    | fuel + 1, hf =>
      have hle : 2 * pw + prw % 2 ≤ n := by
        have := iterLevel_ge (s + 1) (nextLevel (pw, prw))
        rw [hit] at this
        exact this
      rw [mergeLoop, if_pos (by omega)]
      have hpos : 0 < 2 ^ s := Nat.two_pow_pos s
      have hcount : 2 ^ (s + 1) ≤ bs.flatten.length := by
        have hge : ∀ (m k : Nat) (bs : List (List NodeCon)), 0 < k → bs.length = 2 * m → Lens pw prw (2 * k - 1) bs →
            m ≤ bs.flatten.length := by
          intro m
          induction m with
          | zero => intros; omega
          | succ m ihm =>
            intro k bs hk hl hL
            match bs, hl with
            | [_], hl => simp at hl; omega
            | b1 :: b2 :: bs, hl =>
              obtain ⟨h1, h2, h3⟩ := hL
              have hs := segW_next pw prw k hk
              rw [show 2 * k - 1 + 1 = 2 * k by omega] at h2 h3
              have h4 := ihm (k + 1) bs (by omega) (by simp at hl; omega)
                (by rw [show 2 * (k + 1) - 1 = 2 * k + 1 by omega]; exact h3)
              have h5 : 1 ≤ segW (2 * pw + prw % 2) (prw / 2) k := by unfold segW; omega
              simp only [List.flatten_cons, List.length_append]
              omega
        exact hge (2 ^ (s + 1)) 1 bs (by omega) hlen hL
      have h := mergeLevel_built (pw := pw) (prw := prw) (lastRw := lastRw) hw0
        (hl2.elim (fun h => Or.inl (by rw [h])) Or.inr) bs.flatten.length (2 ^ (s + 1)) bs db [] 1 hlen
        hcount (by omega) hL
      obtain ⟨db', bs', hr, hlen', hL', hB⟩ := h
      simp only [List.nil_append, List.length_nil] at hr
      rw [hr]
      simp only
      have hflen : bs'.flatten.length = n := by
        have hsame : ∀ (f : Nat) db cons st k, (mergeLevel (2 * pw + prw % 2) (prw / 2) lastRw f db cons st k).2.length
            = cons.length := by
          intro f
          induction f with
          | zero => intros; rfl
          | succ f ihf =>
            intro db cons st k
            rw [mergeLevel]
            by_cases h : st < cons.length
            · rw [if_pos h]
              simp only
              generalize (if (lowBit k &&& (prw / 2)) ≠ 0 then 1 else 0) = e
              by_cases h1 : 2 * pw + prw % 2 + e = 1
              · rw [if_pos h1, ihf]
              · rw [if_neg h1, ihf, List.length_set]
            · rw [if_neg h]
        have := hsame bs.flatten.length db bs.flatten 0 1
        rw [hr] at this
        simp only at this
        omega
      rw [lor_low, shiftRight_one, shiftRight_one]
      have := ih fuel (2 * pw + prw % 2) (prw / 2) (lastRw / 2) bs' db' hit (by omega) (by omega)
        (by omega) (Or.inl hl1) (by rw [hlen', Nat.pow_succ]; omega) hflen hL'
      obtain ⟨db2, b, hr2, hb, hB2⟩ := this
      exact ⟨db2, b, hr2, hb, hB.trans hB2⟩

theorem merge_built {db : Db} {cons : List NodeCon} (hne : cons ≠ []) :
    ∃ c db', merge db cons = (some c, db') ∧ Built db db' (fun i => ∃ c ∈ cons, c.id = i) (· = c.id) := by
  have hlen : 0 < cons.length := List.length_pos_iff.2 hne
  unfold merge
  have he : cons.isEmpty = false := by simpa using hne
  rw [he]
  simp only [Bool.false_eq_true, if_false]
  obtain ⟨s, e1, e2, e3⟩ := reverseWidth_spec cons.length cons.length 0 hlen (Nat.le_refl _)
  generalize hrw : reverseWidth cons.length cons.length 0 = x at e1 e2 ⊢
  obtain ⟨width, rw⟩ := x
  simp only at e1
  subst e1
  simp only
  -- the virtual level below: segments of width zero or one
  have hnext : nextLevel (0, 2 * rw + 1) = (1, rw) := by
    simp only [nextLevel, Prod.mk.injEq]; omega
  have hsum := sum_segW (s + 1) (0, 2 * rw + 1)
  rw [iterLevel, hnext, e2] at hsum
  have h1 : segW cons.length 0 1 = cons.length := by unfold segW; simp
  simp only at hsum
  rw [h1] at hsum
  obtain ⟨bs, hb1, hb2, hb3⟩ := exists_blocks _ _ _ cons hsum.symm
  have hle1 : ∀ b ∈ bs, b.length ≤ 1 := by
    intro b hb
    obtain ⟨i, hi⟩ := List.mem_iff_getElem?.1 hb
    rw [hb3 i b hi]
    unfold segW
    split <;> omega
  have h := mergeLoop_built hlen s (cons.length + 1) 0 (2 * rw + 1) (rw <<< 1) bs db (by rw [hnext]; exact e2)
    (by omega) (by omega) (by rw [Nat.shiftLeft_eq]; omega) (Or.inr rfl) (by rw [hb2, Nat.pow_succ]; omega)
    (by rw [hb1]) (Lens_of bs 1 hb3)
  obtain ⟨db', b, hr, hbl, hB⟩ := h
  rw [hb1, show 2 * 0 + (2 * rw + 1) % 2 = 1 by omega, show (2 * rw + 1) / 2 = rw by omega] at hr
  rw [hr]
  match b with
  | [] => simp at hbl; omega
  | c :: b =>
    refine ⟨c, db', rfl, (hB.mono fun i hi => ?_).anti fun i hi => ?_⟩
    · rcases heads_cons.1 hi with h | ⟨x, hx, _⟩
      · exact h
      · cases hx
    · obtain ⟨c', hc', e⟩ := hi
      rw [← hb1] at hc'
      obtain ⟨x, hx, hcx⟩ := List.mem_flatten.1 hc'
      have hx1 := hle1 x hx
      match x, hx1, hcx, hx with
      | [y], _, hcx, hx =>
        simp only [List.mem_cons, List.not_mem_nil, or_false] at hcx
        subst hcx
        exact ⟨_, hx, c', rfl, e⟩

end TotDb
end RustSat
