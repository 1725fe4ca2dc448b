import Verif.Spec.LeafIter
import Verif.Lemmas.TotDb
import Verif.Lemmas.Sums
import Verif.Lemmas.CertTree
/-
Lemmas about the iterators over the leaves of a totalizer.
-/
namespace RustSat
namespace TotDb

theorem Node.left_cons {n : Node} {l : NodeCon} (h : n.left = some l) : ∃ r, n.right = some r ∧ n.shape = .inner l r ∧ n.cons = [l, r] := by
  cases n <;> simp only [Node.left, reduceCtorEq, Option.some.injEq] at h <;> subst h <;> exact ⟨_, rfl, rfl, rfl⟩

/-- The leaves that are visited below a node. -/
def subInfos (db : Db) : Nat → Nat → Nat → List LeafInfo
  | 0, _, _ => []
  | fuel + 1, id, m =>
    match (db.node id).left, (db.node id).right with
    | some l, some r =>
      (match conRange db l with | some x => [⟨l.id, m * l.multiplier, x.1, x.2⟩] | none => subInfos db fuel l.id (m * l.multiplier)) ++
      (match conRange db r with | some x => [⟨r.id, m * r.multiplier, x.1, x.2⟩] | none => subInfos db fuel r.id (m * r.multiplier))
    | _, _ => [⟨id, m, 1, 2⟩]

def sub (db : Db) (id m : Nat) : List LeafInfo := subInfos db (id + 1) id m

/-- The leaves that are visited for a connection. -/
def conSub (db : Db) (c : NodeCon) (m : Nat) : List LeafInfo :=
  match conRange db c with
  | some x => [⟨c.id, m * c.multiplier, x.1, x.2⟩]
  | none => sub db c.id (m * c.multiplier)

theorem subInfos_fuel {db : Db} (hw : db.WF) : ∀ f1 f2 id m, id < f1 → id < f2 → subInfos db f1 id m = subInfos db f2 id m := by
  intro f1
  induction f1 with
  | zero => intro f2 id m h; omega
  | succ f1 ih =>
    intro f2 id m h1 h2
    cases f2 with
    | zero => omega
    | succ f2 =>
      unfold subInfos
      cases hl : (db.node id).left with
      | none => rfl
      | some l =>
        obtain ⟨r, hr, hs, -⟩ := Node.left_cons hl
        obtain ⟨k1, k2⟩ := hw.children hs
        rw [hr]
        simp only
        rw [ih f2 l.id _ (by omega) (by omega), ih f2 r.id _ (by omega) (by omega)]

theorem sub_leaf {db : Db} {id : Nat} (m : Nat) (h : (db.node id).left = none) : sub db id m = [⟨id, m, 1, 2⟩] := by
  unfold sub subInfos; rw [h]

theorem sub_inner {db : Db} (hw : db.WF) {id : Nat} (m : Nat) {l r : NodeCon} (h : (db.node id).left = some l)
    (hr : (db.node id).right = some r) : sub db id m = conSub db l m ++ conSub db r m := by
  obtain ⟨r', hr', hs, -⟩ := Node.left_cons h
  rw [hr] at hr'
  cases hr'
  obtain ⟨k1, k2⟩ := hw.children hs
  unfold sub
  rw [subInfos, h, hr]
  simp only
  unfold conSub sub
  rw [subInfos_fuel hw id (l.id + 1) l.id _ k1 (by omega), subInfos_fuel hw id (r.id + 1) r.id _ k2 (by omega)]

/-- What is visited after the last node of the trace. -/
def pend (db : Db) : List (Nat × Bool × Nat) → List LeafInfo
  | [] => []
  | [_] => []
  | (_, right, _) :: (p, pr, pm) :: rest =>
    (if right then [] else match (db.node p).right with | some r => conSub db r pm | none => []) ++ pend db ((p, pr, pm) :: rest)

def TraceOK (db : Db) : List (Nat × Bool × Nat) → Prop
  | [] => True
  | [(_, right, _)] => right = false
  | _ :: (p, pr, pm) :: rest => (∃ r, (db.node p).right = some r) ∧ TraceOK db ((p, pr, pm) :: rest)

/-- The iterator will yield these leaves. -/
def Rem (db : Db) (it : LeafIter) (R : List LeafInfo) : Prop :=
  TraceOK db it.trace ∧ match it.trace with
  | [] => R = []
  | (id, _, m) :: rest => R = ⟨id, m, it.lo, it.hi⟩ :: pend db it.trace

theorem leafDown_spec {db : Db} (hw : db.WF) : ∀ f id fl m rest, id < f → TraceOK db ((id, fl, m) :: rest) →
    ∃ it, leafDown db f ((id, fl, m) :: rest) = some it ∧ Rem db it (sub db id m ++ pend db ((id, fl, m) :: rest)) := by
  intro f
  induction f with
  | zero => intro id fl m rest h; omega
  | succ f ih =>
    intro id fl m rest hf ht
    unfold leafDown
    cases hl : (db.node id).left with
    | none => exact ⟨_, rfl, ht, by rw [sub_leaf m hl]; rfl⟩
    | some l =>
      obtain ⟨r, hr, hs, -⟩ := Node.left_cons hl
      obtain ⟨k1, k2⟩ := hw.children hs
      have ht' : TraceOK db ((l.id, false, m * l.multiplier) :: (id, fl, m) :: rest) := ⟨⟨r, hr⟩, ht⟩
      have hp : pend db ((l.id, false, m * l.multiplier) :: (id, fl, m) :: rest) = conSub db r m ++ pend db ((id, fl, m) :: rest) := by
        rw [pend, hr]; rfl
      simp only
      cases hc : conRange db l with
      | some x =>
        refine ⟨_, rfl, ht', ?_⟩
        simp only
        rw [hp, sub_inner hw m hl hr]
        have : conSub db l m = [⟨l.id, m * l.multiplier, x.1, x.2⟩] := by unfold conSub; rw [hc]
        rw [this]
        simp
      | none =>
        obtain ⟨it, e, h⟩ := ih l.id false (m * l.multiplier) ((id, fl, m) :: rest) (by omega) ht'
        refine ⟨it, e, ?_⟩
        rw [hp] at h
        rw [sub_inner hw m hl hr]
        have : conSub db l m = sub db l.id (m * l.multiplier) := by unfold conSub; rw [hc]
        rw [this, List.append_assoc]
        exact h

theorem findNext_spec {db : Db} (hw : db.WF) (lo hi : Nat) : ∀ trace, trace ≠ [] → TraceOK db trace →
    ∃ it, LeafIter.findNext db ⟨trace, lo, hi⟩ = some it ∧ Rem db it (pend db trace) := by
  intro trace
  induction trace with
  | nil => intro h; exact absurd rfl h
  | cons e rest ih =>
    intro _ ht
    obtain ⟨id, fl, m⟩ := e
    cases rest with
    | nil =>
      simp only [TraceOK] at ht
      subst ht
      exact ⟨⟨[], lo, hi⟩, rfl, trivial, rfl⟩
    | cons p rest =>
      obtain ⟨p, pr, pm⟩ := p
      obtain ⟨⟨r, hr⟩, ht⟩ := ht
      cases fl with
      | true =>
        obtain ⟨it, e, h⟩ := ih (by simp) ht
        refine ⟨it, ?_, by rw [pend]; simpa using h⟩
        unfold LeafIter.findNext at e ⊢
        rw [List.dropWhile_cons_of_pos rfl]
        exact e
      | false =>
        have hp : pend db ((id, false, m) :: (p, pr, pm) :: rest) = conSub db r pm ++ pend db ((p, pr, pm) :: rest) := by
          rw [pend, hr]; rfl
        rw [hp]
        unfold LeafIter.findNext
        rw [List.dropWhile_cons_of_neg (by simp)]
        simp only [hr]
        have ht' : TraceOK db ((r.id, true, pm * r.multiplier) :: (p, pr, pm) :: rest) := ⟨⟨r, hr⟩, ht⟩
        have hp' : pend db ((r.id, true, pm * r.multiplier) :: (p, pr, pm) :: rest) = pend db ((p, pr, pm) :: rest) := by
          rw [pend]; rfl
        cases hc : conRange db r with
        | some x =>
          refine ⟨_, rfl, ht', ?_⟩
          simp only
          rw [hp']
          have : conSub db r pm = [⟨r.id, pm * r.multiplier, x.1, x.2⟩] := by unfold conSub; rw [hc]
          rw [this]; rfl
        | none =>
          obtain ⟨it, e, h⟩ := leafDown_spec hw (r.id + 1) r.id true (pm * r.multiplier) ((p, pr, pm) :: rest) (by omega) ht'
          refine ⟨it, e, ?_⟩
          rw [hp'] at h
          have : conSub db r pm = sub db r.id (pm * r.multiplier) := by unfold conSub; rw [hc]
          rw [this]; exact h

theorem leafIter_next {db : Db} (hw : db.WF) {it : LeafIter} {R : List LeafInfo} (h : Rem db it R) :
    (R = [] ∧ it.next db = some none) ∨ ∃ i R' it', R = i :: R' ∧ it.next db = some (some (i, it')) ∧ Rem db it' R' := by
  obtain ⟨trace, lo, hi⟩ := it
  cases trace with
  | nil => exact Or.inl ⟨h.2, rfl⟩
  | cons e rest =>
    obtain ⟨id, fl, m⟩ := e
    obtain ⟨ht, hR⟩ := h
    obtain ⟨it', e', h'⟩ := findNext_spec hw lo hi _ (by simp) ht
    exact Or.inr ⟨_, _, it', hR, by simp only [LeafIter.next, e']; rfl, h'⟩

/-- The literals for the values of a node. -/
def walk (n : Node) (w : Nat) : Nat → List Nat → Option (List (Lit × Nat))
  | _, [] => some []
  | last, v :: vs => (n.litAt v).bind fun l => (walk n w v vs).map fun L => (l, w * (v - last)) :: L

def infoLits (db : Db) (i : LeafInfo) (last : Nat) : Option (List (Lit × Nat)) :=
  walk (db.node i.id) i.weight last ((db.node i.id).valsRange i.lo i.hi)

def allLits (db : Db) : List LeafInfo → Option (List (Lit × Nat))
  | [] => some []
  | i :: R => (infoLits db i (i.lo - 1)).bind fun L => (allLits db R).map fun L' => L ++ L'

theorem valsRange_tail {db : Db} (hw : db.WF) {id lo hi v : Nat} {vs : List Nat} (h : (db.node id).valsRange lo hi = v :: vs) :
    (db.node id).valsRange (v + 1) hi = vs := by
  cases hn : db.node id with
  | leaf l =>
    rw [hn] at h
    simp only [Node.valsRange] at h ⊢
    by_cases hc : lo ≤ 1 ∧ 1 < hi
    · rw [if_pos hc] at h
      cases h
      simp
    · rw [if_neg hc] at h; cases h
  | dummy => rw [hn] at h; cases h
  | unit lits d n l r =>
    rw [hn] at h
    simp only [Node.valsRange] at h ⊢
    cases hk : min hi (lits.length + 1) - max lo 1 with
    | zero => rw [hk] at h; cases h
    | succ k =>
      rw [hk, List.range'_succ] at h
      simp only [List.cons.injEq] at h
      obtain ⟨rfl, rfl⟩ := h
      rw [show max (max lo 1 + 1) 1 = max lo 1 + 1 by omega, show min hi (lits.length + 1) - (max lo 1 + 1) = k by omega]
  | general lits d n m l r =>
    have hid : id < db.nodes.length := by
      rcases Nat.lt_or_ge id db.nodes.length with h | h
      · exact h
      · rw [Db.node_out h] at hn; cases hn
    have hok := hw.nodes id _ (Db.getElem?_node hid)
    rw [hn] at h hok
    obtain ⟨-, -, -, -, hp, -⟩ := hok
    simp only [Node.valsRange] at h ⊢
    have hlo : lo ≤ v := by
      have : v ∈ (lits.map (·.1)).filter fun v => decide (lo ≤ v) && decide (v < hi) := by rw [h]; simp
      simp only [List.mem_filter, Bool.and_eq_true, decide_eq_true_eq] at this
      exact this.2.1
    have hs := (hp.filter fun v => decide (lo ≤ v) && decide (v < hi))
    rw [h] at hs
    have e : (lits.map (·.1)).filter (fun x => decide (v + 1 ≤ x) && decide (x < hi)) =
        ((lits.map (·.1)).filter fun v => decide (lo ≤ v) && decide (v < hi)).filter fun x => decide (v + 1 ≤ x) := by
      rw [List.filter_filter]
      congr 1
      funext x
      rw [Bool.eq_iff_iff]
      simp only [Bool.and_eq_true, decide_eq_true_eq]
      omega
    rw [e, h, List.filter_cons]
    simp only [Nat.not_succ_le_self, decide_false, Bool.false_eq_true, if_false]
    rw [List.filter_eq_self]
    intro x hx
    have := List.rel_of_pairwise_cons hs hx
    simp only [decide_eq_true_eq]; omega

theorem valsRange_empty {n : Node} {lo hi : Nat} (h : hi ≤ lo) : n.valsRange lo hi = [] := by
  cases n with
  | leaf l => simp only [Node.valsRange]; rw [if_neg (by omega)]
  | dummy => rfl
  | unit lits => simp only [Node.valsRange]; rw [show min hi (lits.length + 1) - max lo 1 = 0 by omega]; rfl
  | general lits => 
    simp only [Node.valsRange]
    rw [List.filter_eq_nil_iff]
    intro x _
    simp only [Bool.and_eq_true, decide_eq_true_eq]; omega

/-- What the iterator will yield. -/
def Out (db : Db) (it : LeafLitIter) (O : List (Lit × Nat)) : Prop :=
  ∃ R L L', Rem db it.leaves R ∧ infoLits db it.current it.lastVal = some L ∧ allLits db R = some L' ∧ O = L ++ L'

theorem findVal_spec {db : Db} (hw : db.WF) : ∀ (R : List LeafInfo) (it : LeafLitIter) (L L' : List (Lit × Nat)), Rem db it.leaves R →
    infoLits db it.current it.lastVal = some L → allLits db R = some L' →
    (L ++ L' = [] ∧ ∃ n0, ∀ n, n0 ≤ n → LeafLitIter.findVal db n it = some none) ∨
    ∃ v l it' O' n0, (∀ n, n0 ≤ n → LeafLitIter.findVal db n it = some (some (v, it'))) ∧ (db.node it'.current.id).litAt v = some l ∧
      L ++ L' = (l, it'.current.weight * (v - it'.lastVal)) :: O' ∧ Out db ⟨it'.leaves, { it'.current with lo := v + 1 }, v⟩ O' := by
  intro R
  induction R with
  | nil =>
    intro it L L' hR hL hL'
    cases hv : (db.node it.current.id).valsRange it.current.lo it.current.hi with
    | nil =>
      left
      unfold infoLits at hL
      rw [hv] at hL
      cases hL
      cases hL'
      refine ⟨rfl, 1, fun n hn => ?_⟩
      obtain ⟨n, rfl⟩ : ∃ k, n = k + 1 := ⟨n - 1, by omega⟩
      unfold LeafLitIter.findVal
      rw [hv]
      rcases leafIter_next hw hR with ⟨-, e⟩ | ⟨_, _, _, e, _⟩
      · simp [e]
      · cases e
    | cons v vs =>
      right
      unfold infoLits at hL
      rw [hv] at hL
      simp only [walk, Option.bind_eq_some_iff, Option.map_eq_some_iff] at hL
      obtain ⟨l, hl, L1, hL1, rfl⟩ := hL
      refine ⟨v, l, it, L1 ++ L', 1, fun n hn => ?_, hl, rfl, _, L1, L', hR, ?_, hL', rfl⟩
      · obtain ⟨n, rfl⟩ : ∃ k, n = k + 1 := ⟨n - 1, by omega⟩
        unfold LeafLitIter.findVal
        rw [hv]; rfl
      · unfold infoLits
        simp only
        rw [valsRange_tail hw hv]; exact hL1
  | cons i R ih =>
    intro it L L' hR hL hL'
    cases hv : (db.node it.current.id).valsRange it.current.lo it.current.hi with
    | nil =>
      unfold infoLits at hL
      rw [hv] at hL
      cases hL
      rcases leafIter_next hw hR with ⟨e, -⟩ | ⟨i', R', it', e, e', hR'⟩
      · cases e
      · cases e
        simp only [allLits, Option.bind_eq_some_iff, Option.map_eq_some_iff] at hL'
        obtain ⟨L1, h1, L2, h2, rfl⟩ := hL'
        have step : ∀ n, LeafLitIter.findVal db (n + 1) it = LeafLitIter.findVal db n ⟨it', i, i.lo - 1⟩ := by
          intro n
          conv => lhs; unfold LeafLitIter.findVal
          rw [hv, e']; rfl
        rcases ih ⟨it', i, i.lo - 1⟩ L1 L2 hR' h1 h2 with ⟨k1, n0, k2⟩ | ⟨v, l, it2, O', n0, k1, k2⟩
        · refine Or.inl ⟨by simpa using k1, n0 + 1, fun n hn => ?_⟩
          obtain ⟨n, rfl⟩ : ∃ k, n = k + 1 := ⟨n - 1, by omega⟩
          rw [step]; exact k2 n (by omega)
        · refine Or.inr ⟨v, l, it2, O', n0 + 1, fun n hn => ?_, k2⟩
          obtain ⟨n, rfl⟩ : ∃ k, n = k + 1 := ⟨n - 1, by omega⟩
          rw [step]; exact k1 n (by omega)
    | cons v vs =>
      right
      unfold infoLits at hL
      rw [hv] at hL
      simp only [walk, Option.bind_eq_some_iff, Option.map_eq_some_iff] at hL
      obtain ⟨l, hl, L1, hL1, rfl⟩ := hL
      refine ⟨v, l, it, L1 ++ L', 1, fun n hn => ?_, hl, rfl, _, L1, L', hR, ?_, hL', rfl⟩
      · obtain ⟨n, rfl⟩ : ∃ k, n = k + 1 := ⟨n - 1, by omega⟩
        unfold LeafLitIter.findVal
        rw [hv]; rfl
      · unfold infoLits
        simp only
        rw [valsRange_tail hw hv]; exact hL1

theorem leafLitIter_next {db : Db} (hw : db.WF) {it : LeafLitIter} {O : List (Lit × Nat)} (h : Out db it O) :
    (O = [] ∧ ∃ n0, ∀ n, n0 ≤ n → it.next db n = some none) ∨
    ∃ x O' it' n0, O = x :: O' ∧ (∀ n, n0 ≤ n → it.next db n = some (some (x, it'))) ∧ Out db it' O' := by
  have key : ∀ it0 : LeafLitIter, Out db it0 O → it.refill db = some (some it0) →
      (O = [] ∧ ∃ n0, ∀ n, n0 ≤ n → it.next db n = some none) ∨
      ∃ x O' it' n0, O = x :: O' ∧ (∀ n, n0 ≤ n → it.next db n = some (some (x, it'))) ∧ Out db it' O' := by
    rintro it0 ⟨R, L, L', h1, h2, h3, rfl⟩ hre
    rcases findVal_spec hw R it0 L L' h1 h2 h3 with ⟨k1, n0, k2⟩ | ⟨v, l, it2, O', n0, k1, k2, k3, k4⟩
    · refine Or.inl ⟨k1, n0, fun n hn => ?_⟩
      unfold LeafLitIter.next
      rw [hre]; simp only; rw [k2 n hn]
    · refine Or.inr ⟨_, O', _, n0, k3, fun n hn => ?_, k4⟩
      unfold LeafLitIter.next
      rw [hre]; simp only; rw [k1 n hn]; simp only [k2, Option.map_some]
  by_cases hc : it.current.hi ≤ it.current.lo
  · obtain ⟨R, L, L', h1, h2, h3, rfl⟩ := h
    unfold infoLits at h2
    rw [valsRange_empty hc] at h2
    cases h2
    rcases leafIter_next hw h1 with ⟨e, e'⟩ | ⟨i, R', it', e, e', hR'⟩
    · subst e
      cases h3
      refine Or.inl ⟨rfl, 0, fun n _ => ?_⟩
      have : it.refill db = some none := by unfold LeafLitIter.refill; rw [if_pos hc, e']
      unfold LeafLitIter.next
      rw [this]
    · subst e
      simp only [allLits, Option.bind_eq_some_iff, Option.map_eq_some_iff] at h3
      obtain ⟨L1, h1', L2, h2', rfl⟩ := h3
      exact key ⟨it', i, i.lo - 1⟩ ⟨R', L1, L2, hR', h1', h2', rfl⟩ (by unfold LeafLitIter.refill; rw [if_pos hc, e'])
  · exact key it h (by unfold LeafLitIter.refill; rw [if_neg hc])

theorem leafCollect_spec {db : Db} (hw : db.WF) : ∀ (O : List (Lit × Nat)) (it : LeafLitIter), Out db it O →
    ∃ n0, ∀ n, n0 ≤ n → LeafLitIter.collect db n it = some O := by
  intro O
  induction O with
  | nil =>
    intro it h
    rcases leafLitIter_next hw h with ⟨-, n0, k⟩ | ⟨_, _, _, _, e, _⟩
    · refine ⟨n0 + 1, fun n hn => ?_⟩
      obtain ⟨n, rfl⟩ : ∃ k, n = k + 1 := ⟨n - 1, by omega⟩
      unfold LeafLitIter.collect
      rw [k (n + 1) (by omega)]
    · cases e
  | cons x O ih =>
    intro it h
    rcases leafLitIter_next hw h with ⟨e, -⟩ | ⟨x', O', it', n0, e, k, h'⟩
    · cases e
    · cases e
      obtain ⟨n1, h1⟩ := ih it' h'
      refine ⟨n0 + n1 + 1, fun n hn => ?_⟩
      obtain ⟨n, rfl⟩ : ∃ k, n = k + 1 := ⟨n - 1, by omega⟩
      unfold LeafLitIter.collect
      rw [k (n + 1) (by omega)]
      simp only
      rw [h1 n (by omega)]; rfl

/-- The iterator yields the literals of the leaves below the node. -/
theorem leafIterLits_spec {db : Db} (hw : db.WF) (id : Nat) {O : List (Lit × Nat)} (h : allLits db (sub db id 1) = some O) :
    Yields (leafIterLits db id) O := by
  obtain ⟨it, e, hr⟩ := leafDown_spec hw (id + 1) id false 1 [] (by omega) rfl
  have hp : pend db [(id, false, 1)] = [] := rfl
  rw [hp, List.append_nil] at hr
  obtain ⟨n0, hn⟩ := leafCollect_spec hw O ⟨it, ⟨0, 0, 0, 0⟩, 0⟩ ⟨_, [], O, hr, by
    unfold infoLits; simp only; rw [valsRange_empty (Nat.le_refl 0)]; rfl, h, rfl⟩
  refine ⟨n0, fun n hm => ?_⟩
  unfold leafIterLits LeafIter.new
  rw [e]
  exact hn n hm

theorem allLits_append {db : Db} : ∀ (A B : List LeafInfo) {L L' : List (Lit × Nat)}, allLits db A = some L → allLits db B = some L' →
    allLits db (A ++ B) = some (L ++ L')
  | [], B, L, L', h, h' => by cases h; simpa using h'
  | i :: A, B, L, L', h, h' => by
    simp only [allLits, Option.bind_eq_some_iff, Option.map_eq_some_iff] at h
    obtain ⟨L1, h1, L2, h2, rfl⟩ := h
    simp only [List.cons_append, allLits, h1, allLits_append A B h2 h', Option.bind_some, Option.map_some, List.append_assoc]

theorem walk_sum {n : Node} (w : Nat) : ∀ k lo, 1 ≤ lo → (∀ v, lo ≤ v → v < lo + k → ∃ l, n.litAt v = some l) →
    ∃ L, walk n w (lo - 1) (List.range' lo k) = some L ∧ ∀ a V, (∀ v l, n.litAt v = some l → (l.holds a = true ↔ v ≤ V)) →
      wsum a L = min (V + 1 - lo) k * w := by
  intro k
  induction k with
  | zero => intro lo _ _; exact ⟨[], rfl, fun a V _ => by simp [wsum]⟩
  | succ k ih =>
    intro lo hlo h
    obtain ⟨l, hl⟩ := h lo (Nat.le_refl _) (by omega)
    obtain ⟨L, h1, h2⟩ := ih (lo + 1) (by omega) fun v hv1 hv2 => h v (by omega) (by omega)
    rw [Nat.add_sub_cancel] at h1
    refine ⟨(l, w * (lo - (lo - 1))) :: L, by rw [List.range'_succ, walk, hl]; simp only [Option.bind_some, h1, Option.map_some], fun a V hV => ?_⟩
    rw [wsum_cons, h2 a V hV, show lo - (lo - 1) = 1 by omega, Nat.mul_one]
    by_cases hh : l.holds a = true
    · have := (hV lo l hl).1 hh
      rw [if_pos hh, show min (V + 1 - lo) (k + 1) = min (V + 1 - (lo + 1)) k + 1 by omega, Nat.add_mul]
      omega
    · have : ¬ lo ≤ V := fun hc => hh ((hV lo l hl).2 hc)
      rw [if_neg hh, show min (V + 1 - lo) (k + 1) = 0 by omega, show min (V + 1 - (lo + 1)) k = 0 by omega]
      simp

theorem valsRange_range' {n : Node} (hg : n.isGeneral = false) {lo hi : Nat} (hlo : 1 ≤ lo) :
    n.valsRange lo hi = List.range' lo (min hi (n.len + 1) - lo) := by
  cases n with
  | general => cases hg
  | dummy => simp only [Node.valsRange, Node.len]; rw [show min hi (0 + 1) - lo = 0 by omega]; rfl
  | unit lits => simp only [Node.valsRange, Node.len]; rw [show max lo 1 = lo by omega]
  | leaf l =>
    simp only [Node.valsRange, Node.len]
    by_cases h : lo ≤ 1 ∧ 1 < hi
    · rw [if_pos h, show min hi (1 + 1) - lo = 1 by omega, show lo = 1 by omega]; rfl
    · rw [if_neg h, show min hi (1 + 1) - lo = 0 by omega]; rfl

theorem maxVal_len {n : Node} (hg : n.isGeneral = false) : n.maxVal = n.len := by cases n <;> first | rfl | cases hg

/-- The leaves below a node sum up to its value. -/
theorem sub_sum {db : Db} (hw : db.WF) (hd : Undivided db) (hres : Reserved db) : ∀ id m, ∃ L, allLits db (sub db id m) = some L ∧
    ∀ a, OutsStrict db a → wsum a L = value db (trueLits a) id * m := by
  intro id
  induction id using Nat.strongRecOn with
  | ind id ih =>
    intro m
    cases hl : (db.node id).left with
    | none =>
      rw [sub_leaf m hl]
      simp only [allLits, infoLits]
      cases hn : db.node id with
      | leaf l =>
        refine ⟨[(l, m)], by simp [Node.valsRange, walk, Node.litAt], fun a _ => ?_⟩
        rw [value_eq hw, hn]
        by_cases hh : l.holds a = true <;> simp [wsum, Node.shape, trueLits, hh]
      | dummy =>
        refine ⟨[], by simp [Node.valsRange, walk], fun a _ => ?_⟩
        rw [value_eq hw, hn]; simp [wsum, Node.shape]
      | unit => rw [hn] at hl; cases hl
      | general => rw [hn] at hl; cases hl
    | some l =>
      obtain ⟨r, hr, hs, hcons⟩ := Node.left_cons hl
      obtain ⟨k1, k2⟩ := hw.children hs
      have con : ∀ c ∈ (db.node id).cons, c.id < id → ∃ L, allLits db (conSub db c m) = some L ∧
          ∀ a, OutsStrict db a → wsum a L = conVal db (trueLits a) c * m := by
        intro c hc hlt
        have hdiv := hd id c hc
        unfold conSub conRange
        by_cases hp : (c.offset > 0 || c.lenLimit.isSome) = true
        · rw [if_pos hp]
          have hid : id < db.nodes.length := by
            rcases Nat.lt_or_ge id db.nodes.length with h | h
            · exact h
            · rw [Db.node_out h] at hl; cases hl
          have hok := hw.nodes id _ (Db.getElem?_node hid)
          have hu : UnitCon db c := by
            cases hn : db.node id with
            | leaf => rw [hn] at hl; cases hl
            | dummy => rw [hn] at hl; cases hl
            | unit lits d n l r =>
              rw [hn] at hok hc
              simp only [Node.cons, List.mem_cons, List.not_mem_nil, or_false] at hc
              rcases hc with rfl | rfl
              · exact hok.2.2.1
              · exact hok.2.2.2.1
            | general lits d n x l r =>
              rw [hn] at hok hc
              have hpl : PlainCon db c := by
                simp only [Node.cons, List.mem_cons, List.not_mem_nil, or_false] at hc
                rcases hc with rfl | rfl
                · exact hok.2.2.1
                · exact hok.2.2.2.1
              rw [hpl.offset, hpl.limit] at hp
              cases hp
          have hres' : ∀ v, c.offset < v → v ≤ (db.node c.id).len → ∃ l, (db.node c.id).litAt v = some l := by
            rcases hres id c hc with ⟨h1, h2⟩ | h
            · rw [h1, h2] at hp; cases hp
            · exact h
          have hV := fun a => value_le_len hw (trueLits a) c.id hu.notGeneral
          have hoff := hu.offset
          cases hlim : c.lenLimit with
          | none =>
            simp only [allLits, infoLits]
            rw [valsRange_range' hu.notGeneral (by omega), maxVal_len hu.notGeneral]
            obtain ⟨L, h1, h2⟩ := walk_sum (m * c.multiplier) (min ((db.node c.id).len + 1) ((db.node c.id).len + 1) - (c.offset + 1)) (c.offset + 1)
              (by omega) fun v hv1 hv2 => hres' v (by omega) (by omega)
            refine ⟨L, by rw [h1]; simp, fun a ha => ?_⟩
            rw [h2 a (value db (trueLits a) c.id) (ha c.id)]
            have := hV a
            unfold conVal NodeCon.map
            rw [hlim, hdiv, Nat.div_one]
            by_cases hvo : value db (trueLits a) c.id ≤ c.offset
            · rw [if_pos hvo, show value db (trueLits a) c.id + 1 - (c.offset + 1) = 0 by omega]; simp
            · rw [if_neg hvo, show min (value db (trueLits a) c.id + 1 - (c.offset + 1)) (min ((db.node c.id).len + 1) ((db.node c.id).len + 1) - (c.offset + 1)) = value db (trueLits a) c.id - c.offset by omega]
              simp only [Nat.mul_comm m, Nat.mul_assoc]
          | some lim =>
            simp only [allLits, infoLits]
            rw [valsRange_range' hu.notGeneral (by omega)]
            obtain ⟨L, h1, h2⟩ := walk_sum (m * c.multiplier) (min (lim + c.offset + 1) ((db.node c.id).len + 1) - (c.offset + 1)) (c.offset + 1)
              (by omega) fun v hv1 hv2 => hres' v (by omega) (by omega)
            refine ⟨L, by rw [h1]; simp, fun a ha => ?_⟩
            rw [h2 a (value db (trueLits a) c.id) (ha c.id)]
            have := hV a
            unfold conVal NodeCon.map
            rw [hlim, hdiv]
            simp only [Nat.div_one]
            by_cases hvo : value db (trueLits a) c.id ≤ c.offset
            · rw [if_pos hvo, show value db (trueLits a) c.id + 1 - (c.offset + 1) = 0 by omega]; simp
            · rw [if_neg hvo, show min (value db (trueLits a) c.id + 1 - (c.offset + 1)) (min (lim + c.offset + 1) ((db.node c.id).len + 1) - (c.offset + 1)) = min (value db (trueLits a) c.id - c.offset) lim by omega]
              simp only [Nat.mul_comm m, Nat.mul_assoc]
        · rw [if_neg hp]
          simp only [Bool.or_eq_true, decide_eq_true_eq, not_or, Bool.not_eq_true, Option.isSome_eq_false_iff, Option.isNone_iff_eq_none] at hp
          obtain ⟨L, h1, h2⟩ := ih c.id hlt (m * c.multiplier)
          refine ⟨L, h1, fun a ha => ?_⟩
          rw [h2 a ha]
          unfold conVal NodeCon.map
          rw [hp.2, hdiv, show c.offset = 0 by omega]
          simp only [Nat.div_one, Nat.sub_zero]
          by_cases hv : value db (trueLits a) c.id ≤ 0
          · rw [if_pos hv, show value db (trueLits a) c.id = 0 by omega]; simp
          · rw [if_neg hv]; simp only [Nat.mul_comm m, Nat.mul_assoc]
      obtain ⟨L1, a1, a2⟩ := con l (by rw [hcons]; simp) k1
      obtain ⟨L2, b1, b2⟩ := con r (by rw [hcons]; simp) k2
      refine ⟨L1 ++ L2, by rw [sub_inner hw m hl hr]; exact allLits_append _ _ a1 b1, fun a ha => ?_⟩
      rw [wsum_append, a2 a ha, b2 a ha, value_eq hw, hs, ← Nat.add_mul]

/-- If connections transmit everything then the leaves are those of the recursive definition. -/
theorem sub_leafLitsF {db : Db} (hw : db.WF) (hc : Complete db) : ∀ f id m, id < f →
    allLits db (sub db id m) = some ((leafLitsF db f id).map fun x => (x.1, x.2 * m)) := by
  intro f
  induction f with
  | zero => intro id m h; omega
  | succ f ih =>
    intro id m hf
    cases hl : (db.node id).left with
    | none =>
      rw [sub_leaf m hl]
      simp only [allLits, infoLits, leafLitsF]
      cases hn : db.node id with
      | leaf l => simp [Node.valsRange, walk, Node.litAt]
      | dummy => simp [Node.valsRange, walk]
      | unit => rw [hn] at hl; cases hl
      | general => rw [hn] at hl; cases hl
    | some l =>
      obtain ⟨r, hr, hs, hcons⟩ := Node.left_cons hl
      obtain ⟨k1, k2⟩ := hw.children hs
      have con : ∀ c ∈ (db.node id).cons, c.id < id →
          allLits db (conSub db c m) = some ((leafLitsF db f c.id).map fun x => (x.1, x.2 * (m * c.multiplier))) := by
        intro c hm hlt
        obtain ⟨h1, h2⟩ := hc id c hm
        unfold conSub conRange
        rw [h1, h2]
        exact ih c.id _ (by omega)
      rw [sub_inner hw m hl hr, allLits_append _ _ (con l (by rw [hcons]; simp) k1) (con r (by rw [hcons]; simp) k2)]
      have e : leafLitsF db (f + 1) id = ((leafLitsF db f l.id).map fun x => (x.1, x.2 * l.multiplier)) ++
          ((leafLitsF db f r.id).map fun x => (x.1, x.2 * r.multiplier)) := by
        rw [leafLitsF]
        cases hn : db.node id <;> rw [hn] at hs <;> simp only [Node.shape, reduceCtorEq, Shape.inner.injEq] at hs <;> simp only [hs]
      rw [e, List.map_append, List.map_map, List.map_map]
      have g : ∀ k, (fun x : Lit × Nat => (x.1, x.2 * m)) ∘ (fun x => (x.1, x.2 * k)) = fun x : Lit × Nat => (x.1, x.2 * (m * k)) := by
        intro k; funext x; simp only [Function.comp, Nat.mul_assoc, Nat.mul_comm m k]
      rw [g, g]

/-- The same below a node of a certified encoding. -/
theorem sub_leafLitsF_good {db : Db} (hw : db.WF) : ∀ f id m, id < f → Good db id →
    allLits db (sub db id m) = some ((leafLitsF db f id).map fun x => (x.1, x.2 * m)) := by
  intro f
  induction f with
  | zero => intro id m h; omega
  | succ f ih =>
    intro id m hf hg
    cases hl : (db.node id).left with
    | none =>
      rw [sub_leaf m hl]
      simp only [allLits, infoLits, leafLitsF]
      cases hn : db.node id with
      | leaf l => simp [Node.valsRange, walk, Node.litAt]
      | dummy => simp [Node.valsRange, walk]
      | unit => rw [hn] at hl; cases hl
      | general => rw [hn] at hl; cases hl
    | some l =>
      obtain ⟨r, hr, hs, hcons⟩ := Node.left_cons hl
      obtain ⟨k1, k2⟩ := hw.children hs
      have con : ∀ c ∈ (db.node id).cons, c.id < id →
          allLits db (conSub db c m) = some ((leafLitsF db f c.id).map fun x => (x.1, x.2 * (m * c.multiplier))) := by
        intro c hm hlt
        have hp : PlainCon db c ∧ Good db c.id := by
          cases hg with
          | leaf h => rw [h] at hs; cases hs
          | inner h p1 p2 _ g1 g2 =>
            rw [hs] at h
            cases h
            rw [hcons] at hm
            simp only [List.mem_cons, List.not_mem_nil, or_false] at hm
            rcases hm with rfl | rfl
            · exact ⟨p1, g1⟩
            · exact ⟨p2, g2⟩
        unfold conSub conRange
        rw [hp.1.offset, hp.1.limit]
        exact ih c.id _ (by omega) hp.2
      rw [sub_inner hw m hl hr, allLits_append _ _ (con l (by rw [hcons]; simp) k1) (con r (by rw [hcons]; simp) k2)]
      have e : leafLitsF db (f + 1) id = ((leafLitsF db f l.id).map fun x => (x.1, x.2 * l.multiplier)) ++
          ((leafLitsF db f r.id).map fun x => (x.1, x.2 * r.multiplier)) := by
        rw [leafLitsF]
        cases hn : db.node id <;> rw [hn] at hs <;> simp only [Node.shape, reduceCtorEq, Shape.inner.injEq] at hs <;> simp only [hs]
      rw [e, List.map_append, List.map_map, List.map_map]
      have g : ∀ k, (fun x : Lit × Nat => (x.1, x.2 * m)) ∘ (fun x => (x.1, x.2 * k)) = fun x : Lit × Nat => (x.1, x.2 * (m * k)) := by
        intro k; funext x; simp only [Function.comp, Nat.mul_assoc, Nat.mul_comm m k]
      rw [g, g]

end TotDb
end RustSat
