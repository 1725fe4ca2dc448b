import Verif.Model.AssignIter
import Verif.Lemmas.Core
/-
The iterator over the values of nodes visits every node below the root and computes its value.
-/
namespace RustSat
namespace TotDb

/-- A node with children. -/
def Inner (db : Db) (i : Nat) : Prop := ∃ l r, (db.node i).shape = .inner l r

/-- The literals that an assignment makes true. -/
def asTrue (as : Assignment) (l : Lit) : Bool := decide (as.litValue l = .true)

/-- The value of a node is in the cache. -/
def Done (cache : List (Option Nat)) (i : Nat) : Prop := ∃ v, cache[i]? = some (some v)

structure CacheOK (db : Db) (T : Lit → Bool) (cache : List (Option Nat)) : Prop where
  val : ∀ i v, cache[i]? = some (some v) → v = value db T i
  closed : ∀ i l r, Done cache i → (db.node i).shape = .inner l r → (Inner db l.id → Done cache l.id) ∧ (Inner db r.id → Done cache r.id)

/-- Calls of `next`. -/
inductive Runs (db : Db) (as : Assignment) : ValueIter → List (Nat × Nat) → ValueIter → Prop
  | refl (it : ValueIter) : Runs db as it [] it
  | step {it it1 it2 : ValueIter} {y : Nat × Nat} {ys : List (Nat × Nat)} (h : it.next db as = some (some (y, it1)))
      (hr : Runs db as it1 ys it2) : Runs db as it (y :: ys) it2

theorem Runs.trans {db : Db} {as : Assignment} {a b c : ValueIter} {xs ys : List (Nat × Nat)} (h : Runs db as a xs b) (h' : Runs db as b ys c) :
    Runs db as a (xs ++ ys) c := by
  induction h with
  | refl => exact h'
  | step h _ ih => exact .step h (ih h')

theorem Runs.snoc {db : Db} {as : Assignment} {a b c : ValueIter} {xs : List (Nat × Nat)} {y : Nat × Nat} (h : Runs db as a xs b)
    (h' : b.next db as = some (some (y, c))) : Runs db as a (xs ++ [y]) c := h.trans (.step h' (.refl _))

theorem Runs.collect {db : Db} {as : Assignment} {a b : ValueIter} {xs : List (Nat × Nat)} (h : Runs db as a xs b) (hb : b.trace = []) (m : Nat)
    (hm : xs.length < m) : a.collect db as m = some xs := by
  induction h generalizing m with
  | refl it =>
    match m, hm with
    | m + 1, _ => simp only [ValueIter.collect, ValueIter.next, hb]
  | step h _ ih =>
    match m, hm with
    | m + 1, hm =>
      simp only [ValueIter.collect, h]
      rw [ih hb m (by simp at hm; omega)]
      rfl

theorem leafVal_eq {db : Db} (hw : db.WF) {as : Assignment} (hA : ∀ j l, db.node j = .leaf l → as.litValue l ≠ .dontCare) {id : Nat} {l : Lit}
    (h : db.node id = .leaf l) : leafVal db as id = some (value db (asTrue as) id) := by
  rw [value_eq hw]
  unfold leafVal
  rw [h]
  simp only [Node.shape, asTrue]
  have hv : as.litValue l = .true ∨ as.litValue l = .false := by
    have := hA id l h
    revert this
    generalize as.litValue l = v
    cases v <;> simp
  rcases hv with hv | hv <;> simp [hv]

/-- What visiting a node does. -/
structure After (db : Db) (T : Lit → Bool) (cache cache' : List (Option Nat)) (ys : List (Nat × Nat)) (c : Nat) : Prop where
  len : cache'.length = cache.length
  ok : CacheOK db T cache'
  mono : ∀ i, Done cache i → Done cache' i
  right : ∀ y ∈ ys, y.2 = value db T y.1
  new : ∀ i, Done cache' i → Done cache i ∨ (∃ y ∈ ys, y.1 = i) ∨ i = c
  self : Inner db c → Done cache' c

theorem done_set {cache : List (Option Nat)} {c v : Nat} (hc : c < cache.length) {i : Nat} : Done (cache.set c (some v)) i ↔ Done cache i ∨ i = c := by
  unfold Done
  by_cases h : c = i
  · subst h
    rw [List.getElem?_set_self hc]
    simp
  · rw [List.getElem?_set_ne h]
    constructor
    · exact Or.inl
    · rintro (h1 | h1)
      · exact h1
      · exact absurd h1.symm h

theorem CacheOK.set {db : Db} {T : Lit → Bool} {cache : List (Option Nat)} (h : CacheOK db T cache) {c : Nat} (hc : c < cache.length) {l r : NodeCon}
    (hs : (db.node c).shape = .inner l r) (hl : Inner db l.id → Done cache l.id) (hr : Inner db r.id → Done cache r.id) :
    CacheOK db T (cache.set c (some (value db T c))) := by
  refine ⟨fun i v hv => ?_, fun i l' r' hd hs' => ?_⟩
  · by_cases hi : c = i
    · subst hi
      rw [List.getElem?_set_self hc] at hv
      cases hv
      rfl
    · rw [List.getElem?_set_ne hi] at hv
      exact h.val i v hv
  · simp only [done_set hc] at hd ⊢
    rcases hd with hd | rfl
    · exact ⟨fun x => Or.inl ((h.closed i l' r' hd hs').1 x), fun x => Or.inl ((h.closed i l' r' hd hs').2 x)⟩
    · rw [hs] at hs'
      cases hs'
      exact ⟨fun x => Or.inl (hl x), fun x => Or.inl (hr x)⟩

theorem left_inner {n : Node} {l r : NodeCon} (h : n.shape = .inner l r) : n.left = some l ∧ n.right = some r := by
  cases n with
  | leaf => cases h
  | dummy => cases h
  | unit => cases h; exact ⟨rfl, rfl⟩
  | general => cases h; exact ⟨rfl, rfl⟩

theorem goDown_spec {db : Db} (hw : db.WF) {as : Assignment} (hA : ∀ j l, db.node j = .leaf l → as.litValue l ≠ .dontCare)
    (hR : AllReal db) : ∀ (n : Nat) (c : NodeCon) (rest : List (NodeCon × Option Nat)) (cache : List (Option Nat)) (fuel : Nat), c.id = n →
      c.id < fuel → c.id < cache.length → c.id < db.nodes.length → CacheOK db (asTrue as) cache →
      ∃ it ys cache', goDown db as fuel ((c, none) :: rest) cache = some it ∧
        Runs db as it ys ⟨(c, some (value db (asTrue as) c.id)) :: rest, cache'⟩ ∧ After db (asTrue as) cache cache' ys c.id := by
  intro n
  induction n using Nat.strongRecOn with
  | ind n ih =>
    intro c rest cache fuel hn hf hlen hin hok
    match fuel, hf with
    | fuel + 1, hf =>
      rw [goDown]
      cases hs : (db.node c.id).shape with
      | dummy => exact absurd (by revert hs; cases db.node c.id <;> simp [Node.shape]) (hR c.id hin)
      | leaf l =>
        have hl : db.node c.id = .leaf l := by revert hs; cases db.node c.id <;> simp [Node.shape]
        refine ⟨⟨(c, some (value db (asTrue as) c.id)) :: rest, cache⟩, [], cache, ?_, .refl _, rfl, hok, fun _ h => h, by simp, fun _ h => Or.inl h, ?_⟩
        · simp only [hl, Node.left, storeLeaf]
          rw [leafVal_eq hw hA hl]
          rfl
        · rintro ⟨l', r', h⟩; rw [hs] at h; cases h
      | inner l r =>
        obtain ⟨e1, e2⟩ := left_inner hs
        obtain ⟨k1, k2⟩ := hw.children hs
        have hval : value db (asTrue as) c.id = l.map (value db (asTrue as) l.id) + r.map (value db (asTrue as) r.id) := by
          rw [value_eq hw, hs]; rfl
        simp only [e1, e2]
        have hlc : ∃ o, cache[l.id]? = some o := ⟨_, List.getElem?_eq_getElem (by omega)⟩
        obtain ⟨o, ho⟩ := hlc
        -- visiting the right child, then finishing the node
        have fin : ∀ (cache1 : List (Option Nat)), cache1.length = cache.length → CacheOK db (asTrue as) cache1 →
            (Inner db l.id → Done cache1 l.id) → cache1[r.id]? = some none → ∀ fuel, r.id < fuel →
            ∃ it ys cache', goDown db as fuel ((r, none) :: (c, some (l.map (value db (asTrue as) l.id))) :: rest) cache1 = some it ∧
              Runs db as it ys ⟨(c, some (value db (asTrue as) c.id)) :: rest, cache'⟩ ∧ After db (asTrue as) cache1 cache' ys c.id := by
          intro cache1 hl1 hok1 hd1 _ fuel hfu
          obtain ⟨it, ys, cache2, g1, g2, g3⟩ := ih r.id (by omega) r ((c, some (l.map (value db (asTrue as) l.id))) :: rest) cache1 fuel rfl hfu
            (by omega) (by omega) hok1
          have hc2 : c.id < cache2.length := by rw [g3.len]; omega
          refine ⟨it, ys ++ [(r.id, value db (asTrue as) r.id)], cache2.set c.id (some (value db (asTrue as) c.id)), g1, g2.snoc ?_, ?_⟩
          · simp only [ValueIter.next, if_pos hc2, ← hval]
          · refine ⟨by simp [g3.len], g3.ok.set hc2 hs (fun h => g3.mono _ (hd1 h)) g3.self, fun i h => (done_set hc2).2 (Or.inl (g3.mono i h)), ?_, fun i h => ?_, fun _ => (done_set hc2).2 (Or.inr rfl)⟩
            · intro y hy
              rcases List.mem_append.1 hy with hy | hy
              · exact g3.right y hy
              · simp only [List.mem_cons, List.not_mem_nil, or_false] at hy; subst hy; rfl
            · rcases (done_set hc2).1 h with h | h
              · rcases g3.new i h with h | ⟨y, hy, e⟩ | h
                · exact Or.inl h
                · exact Or.inr (Or.inl ⟨y, by simp [hy], e⟩)
                · exact Or.inr (Or.inl ⟨(r.id, value db (asTrue as) r.id), by simp, h.symm⟩)
              · exact Or.inr (Or.inr h)
        cases o with
        | some lv =>
          have hlv := hok.val _ _ ho
          subst hlv
          rw [ho]
          simp only
          obtain ⟨o', ho'⟩ : ∃ o, cache[r.id]? = some o := ⟨_, List.getElem?_eq_getElem (by omega)⟩
          cases o' with
          | some rv =>
            have hrv := hok.val _ _ ho'
            subst hrv
            rw [ho']
            simp only [if_pos hlen, ← hval]
            exact ⟨_, [], _, rfl, .refl _, by simp, hok.set hlen hs (fun _ => ⟨_, ho⟩) (fun _ => ⟨_, ho'⟩), fun i h => (done_set hlen).2 (Or.inl h), by simp,
              fun i h => ((done_set hlen).1 h).elim Or.inl (fun h => Or.inr (Or.inr h)), fun _ => (done_set hlen).2 (Or.inr rfl)⟩
          | none =>
            rw [ho']
            simp only
            exact fin cache rfl hok (fun _ => ⟨_, ho⟩) ho' fuel (by omega)
        | none =>
          rw [ho]
          simp only
          obtain ⟨it, ys, cache1, g1, g2, g3⟩ := ih l.id (by omega) l ((c, none) :: rest) cache fuel rfl (by omega) (by omega) (by omega) hok
          obtain ⟨o', ho'⟩ : ∃ o, cache1[r.id]? = some o := ⟨_, List.getElem?_eq_getElem (by rw [g3.len]; omega)⟩
          cases o' with
          | some rv =>
            have hrv := g3.ok.val _ _ ho'
            subst hrv
            have hc2 : c.id < cache1.length := by rw [g3.len]; omega
            refine ⟨it, ys ++ [(l.id, value db (asTrue as) l.id)], cache1.set c.id (some (value db (asTrue as) c.id)), g1, g2.snoc ?_, ?_⟩
            · simp only [ValueIter.next, e2, ho', if_pos hc2, ← hval]
            · refine ⟨by simp [g3.len], g3.ok.set hc2 hs g3.self (fun _ => ⟨_, ho'⟩), fun i h => (done_set hc2).2 (Or.inl (g3.mono i h)), ?_, fun i h => ?_, fun _ => (done_set hc2).2 (Or.inr rfl)⟩
              · intro y hy
                rcases List.mem_append.1 hy with hy | hy
                · exact g3.right y hy
                · simp only [List.mem_cons, List.not_mem_nil, or_false] at hy; subst hy; rfl
              · rcases (done_set hc2).1 h with h | h
                · rcases g3.new i h with h | ⟨y, hy, e⟩ | h
                  · exact Or.inl h
                  · exact Or.inr (Or.inl ⟨y, by simp [hy], e⟩)
                  · exact Or.inr (Or.inl ⟨(l.id, value db (asTrue as) l.id), by simp, h.symm⟩)
                · exact Or.inr (Or.inr h)
          | none =>
            obtain ⟨it2, ys2, cache2, f1, f2, f3⟩ := fin cache1 g3.len g3.ok g3.self ho' (r.id + 1) (by omega)
            refine ⟨it, (ys ++ [(l.id, value db (asTrue as) l.id)]) ++ ys2, cache2, g1, (g2.snoc (c := it2) ?_).trans f2, ?_⟩
            · simp only [ValueIter.next, e2, ho', f1, Option.map_some]
            · refine ⟨by rw [f3.len, g3.len], f3.ok, fun i h => f3.mono i (g3.mono i h), ?_, fun i h => ?_, f3.self⟩
              · intro y hy
                rcases List.mem_append.1 hy with hy | hy
                · rcases List.mem_append.1 hy with hy | hy
                  · exact g3.right y hy
                  · simp only [List.mem_cons, List.not_mem_nil, or_false] at hy; subst hy; rfl
                · exact f3.right y hy
              · rcases f3.new i h with h | ⟨y, hy, e⟩ | h
                · rcases g3.new i h with h | ⟨y, hy, e⟩ | h
                  · exact Or.inl h
                  · exact Or.inr (Or.inl ⟨y, by simp [hy], e⟩)
                  · exact Or.inr (Or.inl ⟨(l.id, value db (asTrue as) l.id), by simp, h.symm⟩)
                · exact Or.inr (Or.inl ⟨y, by simp [hy], e⟩)
                · exact Or.inr (Or.inr h)

/-- With nothing in the cache, the loop of `next` follows left connections. -/
theorem goDown_empty {db : Db} {as : Assignment} (k : Nat) : ∀ (fuel : Nat) (trace : List (NodeCon × Option Nat)) (it : ValueIter),
    goDown db as fuel trace (List.replicate k none) = some it →
    (goLeft db fuel trace).bind (fun trace => (storeLeaf db as trace).map fun trace => (⟨trace, List.replicate k none⟩ : ValueIter)) = some it := by
  intro fuel
  induction fuel with
  | zero => intro trace it h; cases h
  | succ fuel ih =>
    intro trace it h
    rw [goDown.eq_def] at h
    rw [goLeft.eq_def]
    cases trace with
    | nil => cases h
    | cons x rest =>
      obtain ⟨c, v⟩ := x
      simp only at h ⊢
      cases hl : (db.node c.id).left with
      | none => rw [hl] at h; exact h
      | some con =>
        rw [hl] at h
        simp only at h ⊢
        cases hg : (List.replicate k (none : Option Nat))[con.id]? with
        | none => rw [hg] at h; cases h
        | some o =>
          have ho : o = none := by
            have := List.mem_of_getElem? hg
            exact (List.mem_replicate.1 this).2
          subst ho
          rw [hg] at h
          exact ih _ _ h

/-- The iterator yields the value of every node below the root. -/
theorem valueIter_spec {db : Db} (hw : db.WF) {as : Assignment} (hA : ∀ j l, db.node j = .leaf l → as.litValue l ≠ .dontCare)
    (hR : AllReal db) {root : Nat} (hr : root < db.nodes.length) :
    ∃ it ys, ValueIter.new db as root = some it ∧ (∀ m, ys.length < m → it.collect db as m = some ys) ∧
      (∀ y ∈ ys, y.2 = value db (asTrue as) y.1) ∧ ys.getLast? = some (root, value db (asTrue as) root) ∧
      ∃ D : Nat → Prop, D root ∧ (∀ i l r, D i → (db.node i).shape = .inner l r → D l.id ∧ D r.id) ∧
        ∀ i, D i → Inner db i → ∃ y ∈ ys, y.1 = i := by
  have hempty : ∀ i, ¬ Done (List.replicate (root + 1) none) i := by
    rintro i ⟨v, hv⟩
    have := (List.mem_replicate.1 (List.mem_of_getElem? hv)).2
    cases this
  obtain ⟨it, ys, cache', g1, g2, g3⟩ := goDown_spec hw hA hR root (NodeCon.full root) [] (List.replicate (root + 1) none) (root + 1) rfl
    (Nat.lt_succ_self _) (by simp [NodeCon.full]) hr ⟨fun i v h => absurd ⟨v, h⟩ (hempty i), fun i _ _ h => absurd h (hempty i)⟩
  have g4 := g2.snoc (y := (root, value db (asTrue as) root)) (c := ⟨[], cache'⟩) rfl
  refine ⟨it, _, goDown_empty _ _ _ _ g1, fun m hm => g4.collect rfl m hm, ?_, by simp, fun i => Inner db i → Done cache' i, g3.self, ?_, ?_⟩
  · intro y hy
    rcases List.mem_append.1 hy with hy | hy
    · exact g3.right y hy
    · simp only [List.mem_cons, List.not_mem_nil, or_false] at hy; subst hy; rfl
  · intro i l r hd hs
    exact g3.ok.closed i l r (hd ⟨l, r, hs⟩) hs
  · intro i hd hi
    rcases g3.new i (hd hi) with h | ⟨y, hy, e⟩ | h
    · exact absurd h (hempty i)
    · exact ⟨y, by simp [hy], e⟩
    · exact ⟨_, List.mem_append_right _ (List.mem_singleton.2 rfl), h.symm⟩

end TotDb
end RustSat
