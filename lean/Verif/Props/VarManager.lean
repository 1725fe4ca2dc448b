import Verif.Lemmas.VarManager
import Verif.Lemmas.Instance
/-
Property theorems C19 (fresh variables) and C20 (re-indexing).
-/
namespace RustSat

private def x0 : Lit := Lit.mk' 0 false
private def x1 : Lit := Lit.mk' 1 false
private def x5 : Lit := Lit.mk' 5 false

/-! ### C19 -/

private theorem runVm_spec {M : Type} [ManageVars M] [LawfulVM M] (other : Nat → M)
    (ho : ∀ w, ManageVars.nUsed (other w) = w) (ops : List VmOp) (m : M) :
    (∀ v, v < ManageVars.nUsed (runVm other m ops).2 ↔
      UsedBy (· < ManageVars.nUsed m) ops (runVm other m ops).1 v) ∧
    (∀ v ∈ (runVm other m ops).1, ManageVars.nUsed m ≤ v) ∧
    (runVm other m ops).1.Pairwise (· < ·) := by
  induction ops generalizing m with
  | nil =>
    refine ⟨fun v => ⟨fun h => .init h, fun h => ?_⟩, by simp [runVm], by simp [runVm]⟩
    cases h with
    | init h => exact h
    | marked h _ => cases h
    | increased h _ => cases h
    | combined h _ => cases h
    | returned h => simp [runVm] at h
  | cons op ops ih =>
    -- the common step for operations that hand out a variable
    have hnew : ∀ m' : M, ManageVars.nUsed m' = ManageVars.nUsed m + 1 → ∀ op', (op' = .newVar ∨ op' = .newLit) →
        let r := runVm other m' ops
        (∀ v, v < ManageVars.nUsed r.2 ↔
          UsedBy (· < ManageVars.nUsed m) (op' :: ops) (ManageVars.nUsed m :: r.1) v) ∧
        (∀ v ∈ ManageVars.nUsed m :: r.1, ManageVars.nUsed m ≤ v) ∧
        (ManageVars.nUsed m :: r.1).Pairwise (· < ·) := by
      intro m' hm' op' hop' r
      obtain ⟨h1, h2, h3⟩ := ih m'
      refine ⟨fun v => ?_, ?_, ?_⟩
      · rw [h1 v]
        constructor
        · intro h
          cases h with
          | init h =>
            rw [hm'] at h
            by_cases hv : v = ManageVars.nUsed m
            · exact .returned (by simp [hv])
            · exact .init (by omega)
          | marked h h' => exact .marked (List.mem_cons_of_mem _ h) h'
          | increased h h' => exact .increased (List.mem_cons_of_mem _ h) h'
          | combined h h' => exact .combined (List.mem_cons_of_mem _ h) h'
          | returned h => exact .returned (List.mem_cons_of_mem _ h)
        · intro h
          cases h with
          | init h => exact .init (by rw [hm']; omega)
          | marked h h' =>
            rcases List.mem_cons.1 h with h | h
            · rcases hop' with rfl | rfl <;> cases h
            · exact .marked h h'
          | increased h h' =>
            rcases List.mem_cons.1 h with h | h
            · rcases hop' with rfl | rfl <;> cases h
            · exact .increased h h'
          | combined h h' =>
            rcases List.mem_cons.1 h with h | h
            · rcases hop' with rfl | rfl <;> cases h
            · exact .combined h h'
          | returned h =>
            rcases List.mem_cons.1 h with h | h
            · exact .init (by rw [hm']; omega)
            · exact .returned h
      · intro v hv
        rcases List.mem_cons.1 hv with rfl | hv
        · exact Nat.le_refl _
        · have := h2 v hv; omega
      · refine List.Pairwise.cons (fun v hv => ?_) h3
        have := h2 v hv; omega
    -- the common step for operations that only raise the bound
    have hinc : ∀ (m' : M) k, ManageVars.nUsed m' = max (ManageVars.nUsed m) k →
        ∀ op', (∀ outs v, UsedBy (fun _ => False) [op'] outs v ↔ v < k ∨ v ∈ outs) →
        let r := runVm other m' ops
        (∀ v, v < ManageVars.nUsed r.2 ↔ UsedBy (· < ManageVars.nUsed m) (op' :: ops) r.1 v) ∧
        (∀ v ∈ r.1, ManageVars.nUsed m ≤ v) ∧ r.1.Pairwise (· < ·) := by
      intro m' k hm' op' hop' r
      obtain ⟨h1, h2, h3⟩ := ih m'
      refine ⟨fun v => ?_, fun v hv => by have := h2 v hv; omega, h3⟩
      rw [h1 v]
      constructor
      · intro h
        cases h with
        | init h =>
          rw [hm'] at h
          by_cases hv : v < ManageVars.nUsed m
          · exact .init hv
          · have hk := (hop' [] v).2 (.inl (by omega))
            cases hk with
            | init h => exact h.elim
            | marked h h' => exact .marked (by simp at h; simp [h]) h'
            | increased h h' => exact .increased (by simp at h; simp [h]) h'
            | combined h h' => exact .combined (by simp at h; simp [h]) h'
            | returned h => cases h
        | marked h h' => exact .marked (List.mem_cons_of_mem _ h) h'
        | increased h h' => exact .increased (List.mem_cons_of_mem _ h) h'
        | combined h h' => exact .combined (List.mem_cons_of_mem _ h) h'
        | returned h => exact .returned h
      · intro h
        have hk : ∀ v, UsedBy (fun _ => False) [op'] [] v → UsedBy (· < ManageVars.nUsed m') ops r.1 v := by
          intro v hv
          have := (hop' [] v).1 hv
          simp only [List.not_mem_nil, or_false] at this
          exact .init (by omega)
        cases h with
        | init h => exact .init (by omega)
        | marked h h' =>
          rcases List.mem_cons.1 h with h | h
          · exact hk v (.marked (by simp [h]) h')
          · exact .marked h h'
        | increased h h' =>
          rcases List.mem_cons.1 h with h | h
          · exact hk v (.increased (by simp [h]) h')
          · exact .increased h h'
        | combined h h' =>
          rcases List.mem_cons.1 h with h | h
          · exact hk v (.combined (by simp [h]) h')
          · exact .combined h h'
        | returned h => exact .returned h
    cases op with
    | newVar =>
      have := hnew (ManageVars.newVar m).2 (LawfulVM.newVar_snd m) .newVar (.inl rfl)
      rw [← LawfulVM.newVar_fst m] at this
      rw [LawfulVM.newVar_fst m] at this
      simpa only [runVm, LawfulVM.newVar_fst] using this
    | newLit =>
      have := hnew (ManageVars.newVar m).2 (LawfulVM.newVar_snd m) .newLit (.inr rfl)
      simpa only [runVm, ManageVars.newLit, LawfulVM.newVar_fst, Lit.var_pos] using this
    | increaseNextFree k =>
      refine hinc (ManageVars.increaseNextFree m k).2 k (LawfulVM.increase m k) _ ?_
      intro outs v
      constructor
      · intro h
        cases h with
        | init h => exact h.elim
        | marked h _ => simp at h
        | increased h h' => simp at h; subst h; exact .inl h'
        | combined h _ => simp at h
        | returned h => exact .inr h
      · rintro (h | h)
        · exact .increased (by simp) h
        · exact .returned h
    | markUsed k =>
      refine hinc (ManageVars.markUsed m k).2 (k + 1) (LawfulVM.increase m (k + 1)) _ ?_
      intro outs v
      constructor
      · intro h
        cases h with
        | init h => exact h.elim
        | marked h h' => simp at h; subst h; exact .inl (by omega)
        | increased h h' => simp at h
        | combined h _ => simp at h
        | returned h => exact .inr h
      · rintro (h | h)
        · exact .marked (w := k) (by simp) (by omega)
        · exact .returned h
    | combine k =>
      refine hinc (ManageVars.combine m (other k)) k (by rw [LawfulVM.combine, ho]) _ ?_
      intro outs v
      constructor
      · intro h
        cases h with
        | init h => exact h.elim
        | marked h _ => simp at h
        | increased h _ => simp at h
        | combined h h' => simp at h; subst h; exact .inl h'
        | returned h => exact .inr h
      · rintro (h | h)
        · exact .combined (by simp) h
        · exact .returned h

/-- C19 for any manager satisfying the counting laws `LawfulVM` (instances: `BasicVM`, `ReindexVM`,
`ObjectVM`): after any history of calls, starting from any manager,
* the next `new_var` is a variable that was not used initially, not marked, not covered by
  `increase_next_free`/`combine` and never returned before;
* all returned variables are pairwise different;
* `n_used` and `max_var` describe exactly the used variables. -/
theorem C19_fresh {M : Type} [ManageVars M] [LawfulVM M] (other : Nat → M)
    (ho : ∀ w, ManageVars.nUsed (other w) = w) (m : M) (ops : List VmOp) :
    ¬ UsedBy (· < ManageVars.nUsed m) ops (runVm other m ops).1 (ManageVars.newVar (runVm other m ops).2).1 ∧
    (runVm other m ops).1.Nodup ∧
    (∀ v, v < ManageVars.nUsed (runVm other m ops).2 ↔
      UsedBy (· < ManageVars.nUsed m) ops (runVm other m ops).1 v) ∧
    (∀ v, ManageVars.maxVar (runVm other m ops).2 = some v ↔
      UsedBy (· < ManageVars.nUsed m) ops (runVm other m ops).1 v ∧
      ∀ u, UsedBy (· < ManageVars.nUsed m) ops (runVm other m ops).1 u → u ≤ v) := by
  obtain ⟨h1, _, h3⟩ := runVm_spec other ho ops m
  refine ⟨?_, h3.imp (fun h => by omega), h1, ?_⟩
  · rw [LawfulVM.newVar_fst, ← h1]; omega
  · intro v
    simp only [← h1, LawfulVM.maxVar]
    by_cases hz : ManageVars.nUsed (runVm other m ops).2 = 0
    · rw [if_pos hz]; simp [hz]
    · rw [if_neg hz]
      simp only [Option.some.injEq]
      constructor
      · intro h; subst h; exact ⟨by omega, fun u hu => by omega⟩
      · rintro ⟨h, h'⟩
        have := h' (ManageVars.nUsed (runVm other m ops).2 - 1) (by omega)
        omega

/-- C19 for `BasicVarManager`. -/
theorem C19_fresh_basic (n : Nat) (ops : List VmOp) :
    ¬ UsedBy (· < n) ops (runVm BasicVM.fromNextFree (.fromNextFree n) ops).1
      (ManageVars.newVar (runVm BasicVM.fromNextFree (.fromNextFree n) ops).2).1 :=
  (C19_fresh BasicVM.fromNextFree (fun _ => rfl) (BasicVM.fromNextFree n) ops).1

/-- C19 for `ReindexingVarManager`. -/
theorem C19_fresh_reindexing (n : Nat) (ops : List VmOp) :
    ¬ UsedBy (· < n) ops (runVm ReindexVM.fromNextFree (.fromNextFree n) ops).1
      (ManageVars.newVar (runVm ReindexVM.fromNextFree (.fromNextFree n) ops).2).1 :=
  (C19_fresh ReindexVM.fromNextFree (fun _ => rfl) (ReindexVM.fromNextFree n) ops).1

/-- C19 for `ObjectVarManager`. -/
theorem C19_fresh_object {κ : Type} (n : Nat) (ops : List VmOp) :
    ¬ UsedBy (· < n) ops (runVm (M := ObjectVM κ) ObjectVM.fromNextFree (.fromNextFree n) ops).1
      (ManageVars.newVar (runVm (M := ObjectVM κ) ObjectVM.fromNextFree (.fromNextFree n) ops).2).1 :=
  (C19_fresh (M := ObjectVM κ) ObjectVM.fromNextFree (fun _ => rfl) (ObjectVM.fromNextFree n) ops).1

example : (runVm BasicVM.fromNextFree (.fromNextFree 2)
    [.newVar, .markUsed 5, .newLit, .increaseNextFree 3, .combine 10, .newVar]) = ([2, 6, 10], ⟨11⟩) := by decide

/-- A call on an `ObjectVarManager`. -/
inductive ObjOp (κ : Type) where
  | object (k : κ)
  | newVar
  | increaseNextFree (v : Nat)

/-- The trace of a history on an object manager: for each returned variable the object it was requested for
(`none` for `new_var`). -/
def runObj {κ : Type} [BEq κ] : ObjectVM κ → List (ObjOp κ) → List (Option κ × Nat)
  | _, [] => []
  | m, .object k :: ops => let (v, m') := m.objectVar k; (some k, v) :: runObj m' ops
  | m, .newVar :: ops => let (v, m') := ManageVars.newVar m; (none, v) :: runObj m' ops
  | m, .increaseNextFree v :: ops => runObj (ManageVars.increaseNextFree m v).2 ops

private theorem obj_lookup_cons {κ : Type} [BEq κ] [LawfulBEq κ] (k u : κ) (w : Nat) (m : List (κ × Nat)) :
    ((k, w) :: m).lookup u = if u == k then some w else m.lookup u := by
  simp only [List.lookup_cons]
  cases u == k <;> rfl

private theorem runObj_spec {κ : Type} [BEq κ] [LawfulBEq κ] (ops : List (ObjOp κ)) (m : ObjectVM κ)
    (h1 : ∀ k v, m.objMap.lookup k = some v → v < m.nextVar)
    (h2 : ∀ k k' v, m.objMap.lookup k = some v → m.objMap.lookup k' = some v → k = k') :
    (∀ e ∈ runObj m ops, (∃ k, e.1 = some k ∧ m.objMap.lookup k = some e.2) ∨
      (m.nextVar ≤ e.2 ∧ ∀ k, e.1 = some k → m.objMap.lookup k = none)) ∧
    (runObj m ops).Pairwise fun e e' => e.2 = e'.2 ↔ e.1 = e'.1 ∧ e.1 ≠ none := by
  induction ops generalizing m with
  | nil => simp [runObj]
  | cons op ops ih =>
    cases op with
    | increaseNextFree v =>
      have hm : (ManageVars.increaseNextFree m v).2.objMap = m.objMap ∧
          m.nextVar ≤ (ManageVars.increaseNextFree m v).2.nextVar := by
        simp only [ManageVars.increaseNextFree]; split
        · simp only [true_and]; omega
        · simp
      obtain ⟨g1, g2⟩ := ih (ManageVars.increaseNextFree m v).2
        (fun k w hk => by rw [hm.1] at hk; have := h1 k w hk; omega) (by rw [hm.1]; exact h2)
      refine ⟨fun e he => ?_, g2⟩
      have := g1 e he
      rw [hm.1] at this
      rcases this with h | ⟨h, h'⟩
      · exact .inl h
      · exact .inr ⟨by omega, h'⟩
    | newVar =>
      obtain ⟨g1, g2⟩ := ih (ManageVars.newVar m).2
        (fun k w hk => by have := h1 k w hk; simp only [ManageVars.newVar]; omega) h2
      simp only [runObj, ManageVars.newVar] at g1 g2 ⊢
      refine ⟨fun e he => ?_, List.Pairwise.cons (fun e he => ?_) g2⟩
      · rcases List.mem_cons.1 he with rfl | he
        · exact .inr ⟨Nat.le_refl _, by simp⟩
        · rcases g1 e he with h | ⟨h, h'⟩
          · exact .inl h
          · exact .inr ⟨by omega, h'⟩
      · simp only [ne_eq, not_true, and_false, iff_false]
        rcases g1 e he with ⟨k, hk, hl⟩ | ⟨h, _⟩
        · have := h1 k _ hl; omega
        · omega
    | object k =>
      simp only [runObj, ObjectVM.objectVar]
      cases hl : m.objMap.lookup k with
      | some v =>
        obtain ⟨g1, g2⟩ := ih m h1 h2
        simp only
        refine ⟨fun e he => ?_, List.Pairwise.cons (fun e he => ?_) g2⟩
        · rcases List.mem_cons.1 he with rfl | he
          · exact .inl ⟨k, rfl, hl⟩
          · exact g1 e he
        · simp only [ne_eq, reduceCtorEq, not_false_iff, and_true]
          rcases g1 e he with ⟨k', hk', hl'⟩ | ⟨h, h'⟩
          · constructor
            · intro hv; rw [hk', h2 k k' v hl (hv ▸ hl')]
            · intro hk; rw [hk'] at hk; cases hk; rw [hl] at hl'; exact Option.some.inj hl'
          · constructor
            · intro hv; have := h1 k v hl; omega
            · intro hk; rw [h' k hk.symm] at hl; cases hl
      | none =>
        have hlk : ∀ u, ((k, m.nextVar) :: m.objMap).lookup u = if u == k then some m.nextVar else m.objMap.lookup u :=
          fun u => obj_lookup_cons k u _ _
        simp only [ManageVars.newVar]
        obtain ⟨g1, g2⟩ := ih { nextVar := m.nextVar + 1, objMap := (k, m.nextVar) :: m.objMap }
          (by
            intro u w hu
            rw [hlk] at hu
            cases hb : u == k with
            | true => rw [hb] at hu; simp at hu; simp only; omega
            | false => rw [hb] at hu; simp at hu; have := h1 u w hu; simp only; omega)
          (by
            intro u u' w hu hu'
            rw [hlk] at hu hu'
            cases hb : u == k <;> cases hb' : u' == k <;> rw [hb] at hu <;> rw [hb'] at hu' <;> simp at hu hu'
            · exact h2 u u' w hu hu'
            · have := h1 u w hu; omega
            · have := h1 u' w hu'; omega
            · rw [eq_of_beq hb, eq_of_beq hb'])
        refine ⟨fun e he => ?_, List.Pairwise.cons (fun e he => ?_) g2⟩
        · rcases List.mem_cons.1 he with rfl | he
          · exact .inr ⟨Nat.le_refl _, by intro k' hk'; cases hk'; exact hl⟩
          · rcases g1 e he with ⟨k', hk', hl'⟩ | ⟨h, h'⟩
            · simp only [hlk] at hl'
              cases hb : k' == k with
              | true =>
                rw [hb] at hl'; simp at hl'
                refine .inr ⟨by omega, fun k'' hk'' => ?_⟩
                rw [hk'] at hk''; cases hk''; rw [eq_of_beq hb]; exact hl
              | false => rw [hb] at hl'; simp at hl'; exact .inl ⟨k', hk', hl'⟩
            · simp only at h
              refine .inr ⟨by omega, fun k' hk' => ?_⟩
              have := h' k' hk'
              simp only [hlk] at this
              cases hb : k' == k with
              | true => rw [hb] at this; simp at this
              | false => rw [hb] at this; simpa using this
        · simp only [ne_eq, reduceCtorEq, not_false_iff, and_true]
          rcases g1 e he with ⟨k', hk', hl'⟩ | ⟨h, h'⟩
          · simp only [hlk] at hl'
            cases hb : k' == k with
            | true =>
              rw [hb] at hl'; simp at hl'
              rw [hk', eq_of_beq hb]; simp [hl']
            | false =>
              rw [hb] at hl'; simp at hl'
              have := h1 k' _ hl'
              constructor
              · intro hv; omega
              · intro hk; rw [hk'] at hk; cases hk; rw [hl] at hl'; cases hl'
          · constructor
            · intro hv; simp only at h; omega
            · intro hk
              have := h' k hk.symm
              simp [hlk] at this

/-- C19 for `ObjectVarManager::object_var`: in any history of object and new-variable requests, two requests
return the same variable iff they are requests for the same object. -/
theorem C19_object_var {κ : Type} [BEq κ] [LawfulBEq κ] (n : Nat) (ops : List (ObjOp κ)) :
    ((runObj (ObjectVM.fromNextFree n) ops).Pairwise fun e e' => e.2 = e'.2 ↔ e.1 = e'.1 ∧ e.1 ≠ none) ∧
    ∀ e ∈ runObj (ObjectVM.fromNextFree n) ops, n ≤ e.2 := by
  obtain ⟨h1, h2⟩ := runObj_spec ops (ObjectVM.fromNextFree n) (by simp [ObjectVM.fromNextFree])
    (by simp [ObjectVM.fromNextFree])
  refine ⟨h2, fun e he => ?_⟩
  rcases h1 e he with ⟨k, _, hl⟩ | ⟨h, _⟩
  · simp [ObjectVM.fromNextFree] at hl
  · exact h

example : runObj (ObjectVM.fromNextFree 1) [.object "a", .newVar, .object "b", .object "a"] =
    [(some "a", 1), (none, 2), (some "b", 3), (some "a", 1)] := by decide

/-! ### C20 -/

/-- The outputs of a sequence of `reindex` calls and the final manager. -/
def runReindex : ReindexVM → List Nat → List Nat × ReindexVM
  | m, [] => ([], m)
  | m, v :: vs => let (w, m') := m.reindex v; let (ws, m'') := runReindex m' vs; (w :: ws, m'')

private theorem runReindex_spec (base : Nat) (vs : List Nat) (m : ReindexVM) (h : m.Inv base) :
    (runReindex m vs).2.Inv base ∧ ReindexVM.Ext m (runReindex m vs).2 ∧
    (runReindex m vs).1.length = vs.length ∧
    ∀ (i v : Nat), vs[i]? = some v → ∃ w, (runReindex m vs).1[i]? = some w ∧
      (runReindex m vs).2.inMap.lookup v = some w := by
  induction vs generalizing m with
  | nil => exact ⟨h, ReindexVM.Ext.refl m, rfl, by simp⟩
  | cons v vs ih =>
    obtain ⟨h1, h2, h3, _⟩ := ReindexVM.reindex_spec base m h v
    obtain ⟨g1, g2, g3, g4⟩ := ih (m.reindex v).2 h1
    simp only [runReindex]
    refine ⟨g1, ReindexVM.Ext.trans h3 g2, by simp [g3], fun i u hi => ?_⟩
    cases i with
    | zero => simp at hi; subst hi; exact ⟨_, by simp, g2 _ _ h2⟩
    | succ i => simp at hi; obtain ⟨w, hw, hl⟩ := g4 i u hi; exact ⟨w, by simpa using hw, hl⟩

theorem inv_injective {base : Nat} {m : ReindexVM} (h : m.Inv base) {u v w : Nat}
    (hu : m.inMap.lookup u = some w) (hv : m.inMap.lookup v = some w) : u = v := by
  have h1 := (h.map u w hu).2.2
  have h2 := (h.map v w hv).2.2
  rw [h1] at h2; exact Option.some.inj h2

/-- C20: for any sequence of `reindex` calls on a new manager (`default` is `from_next_free 0`), equal inputs
get equal outputs, different inputs different outputs, outputs are free variables, and `reverse` of the
output is the input. -/
theorem C20_reindex_calls (n : Nat) (vs : List Nat) :
    (runReindex (.fromNextFree n) vs).1.length = vs.length ∧
    (∀ (i j u v w x : Nat), vs[i]? = some u → vs[j]? = some v → (runReindex (.fromNextFree n) vs).1[i]? = some w →
      (runReindex (.fromNextFree n) vs).1[j]? = some x → (u = v ↔ w = x)) ∧
    (∀ (i v w : Nat), vs[i]? = some v → (runReindex (.fromNextFree n) vs).1[i]? = some w →
      (runReindex (.fromNextFree n) vs).2.reverse w = some v ∧ n ≤ w ∧
      w < ManageVars.nUsed (runReindex (.fromNextFree n) vs).2) := by
  obtain ⟨h1, _, h3, h4⟩ := runReindex_spec n vs (.fromNextFree n) (ReindexVM.inv_fromNextFree n)
  refine ⟨h3, ?_, ?_⟩
  · intro i j u v w x hu hv hw hx
    obtain ⟨w', hw', hl⟩ := h4 i u hu
    obtain ⟨x', hx', hl'⟩ := h4 j v hv
    rw [hw] at hw'; cases hw'
    rw [hx] at hx'; cases hx'
    constructor
    · intro he; subst he; rw [hl] at hl'; exact Option.some.inj hl'
    · intro he; subst he; exact inv_injective h1 hl hl'
  · intro i v w hv hw
    obtain ⟨w', hw', hl⟩ := h4 i v hv
    rw [hw] at hw'; cases hw'
    obtain ⟨h5, h6, h7⟩ := h1.map v w hl
    exact ⟨h7, h5, h6⟩

/-- C20, for literals: `reverse_lit` undoes `reindex_lit`, and re-indexing commutes with negation. -/
theorem C20_reindex_lit (n : Nat) (vs : List Nat) (l : Lit) :
    let m := (runReindex (.fromNextFree n) vs).2
    (m.reindexLit l).2.reverseLit (m.reindexLit l).1 = some l ∧
    (m.reindexLit l.neg).1 = (m.reindexLit l).1.neg := by
  intro m
  obtain ⟨h1, _⟩ := runReindex_spec n vs (.fromNextFree n) (ReindexVM.inv_fromNextFree n)
  obtain ⟨g1, g2, _, _⟩ := ReindexVM.reindex_spec n m h1 l.var
  constructor
  · simp only [ReindexVM.reverseLit, ReindexVM.reindexLit]
    have hv : (if l.isPos = true then Lit.pos (m.reindex l.var).1 else Lit.negOf (m.reindex l.var).1).var =
        (m.reindex l.var).1 := by
      by_cases hp : l.isPos = true
      · rw [if_pos hp, Lit.var_pos]
      · rw [if_neg hp, Lit.var_negOf]
    rw [hv, ReindexVM.reverse, (g1.map _ _ g2).2.2]
    simp only [Option.map_some, Option.some.injEq]
    have hp : (if l.isPos = true then Lit.pos (m.reindex l.var).1 else Lit.negOf (m.reindex l.var).1).isPos =
        l.isPos := by
      by_cases hp : l.isPos = true
      · rw [if_pos hp, hp, Lit.isPos_eq, Lit.isNeg_pos]; rfl
      · have : l.isPos = false := by simpa using hp
        rw [if_neg hp, this, Lit.isPos_eq, Lit.isNeg_negOf]; rfl
    simp only [hp]
    apply Lit.ext_var
    · by_cases h : l.isPos = true
      · rw [if_pos h, Lit.var_pos]
      · rw [if_neg h, Lit.var_negOf]
    · rw [Lit.isPos_eq]; cases l.isNeg <;> simp
  · simp only [ReindexVM.reindexLit, Lit.var_neg, Lit.isPos_eq, Lit.isNeg_neg]
    cases l.isNeg <;> simp

theorem instance_reindex_spec {VM : Type} (s : SatInstance VM) (base : Nat) (m : ReindexVM)
    (hm : m.Inv base) :
    let t := s.reindex m
    t.vm.Inv base ∧ ReindexVM.Ext m t.vm ∧ (∀ v, s.hasVar v → (t.vm.inMap.lookup v).isSome) ∧
    t.cnf = s.cnf.map (List.map (Lit.rename t.vm.fn)) ∧
    t.cards = s.cards.map (CardConstraint.rename t.vm.fn) ∧ t.pbs = s.pbs.map (PbConstraint.rename t.vm.fn) := by
  intro t
  obtain ⟨a1, a2, a3, a4⟩ := reindexList_spec (reindexSpec_lits base) m s.cnf hm
  obtain ⟨b1, b2, b3, b4⟩ := reindexList_spec (reindexSpec_card base) _ s.cards a1
  obtain ⟨c1, c2, c3, c4⟩ := reindexList_spec (reindexSpec_pb base) _ s.pbs b1
  refine ⟨c1, a2.trans (b2.trans c2), ?_, a4 _ (b2.trans c2), b4 _ c2, c4 _ (ReindexVM.Ext.refl _)⟩
  intro v hv
  rcases hv with ⟨c, hc, l, hl, rfl⟩ | ⟨c, hc, l, hl, rfl⟩ | ⟨c, hc, l, hl, rfl⟩
  · obtain ⟨w, hw⟩ := Option.isSome_iff_exists.1
      (a3 l.var (List.mem_flatMap.2 ⟨c, hc, List.mem_map.2 ⟨l, hl, rfl⟩⟩))
    exact Option.isSome_iff_exists.2 ⟨w, c2 _ _ (b2 _ _ hw)⟩
  · obtain ⟨w, hw⟩ := Option.isSome_iff_exists.1
      (b3 l.var (List.mem_flatMap.2 ⟨c, hc, List.mem_map.2 ⟨l, hl, rfl⟩⟩))
    exact Option.isSome_iff_exists.2 ⟨w, c2 _ _ hw⟩
  · exact c3 l.1.var (List.mem_flatMap.2 ⟨c, hc, List.mem_map.2 ⟨l, hl, rfl⟩⟩)

theorem instance_reindex_sem {VM : Type} (s : SatInstance VM) (base : Nat) (m : ReindexVM)
    (hm : m.Inv base) :
    let t := s.reindex m
    (∀ b, t.sat b ↔ s.sat (fun v => b (t.vm.fn v))) ∧
    (∀ u v, s.hasVar u → s.hasVar v → t.vm.fn u = t.vm.fn v → u = v) ∧
    (∀ v, s.hasVar v → t.vm.reverse (t.vm.fn v) = some v ∧ t.vm.reindex v = (t.vm.fn v, t.vm)) ∧ t.Known := by
  intro t
  obtain ⟨h1, _, h3, h4, h5, h6⟩ := instance_reindex_spec s base m hm
  have hfn : ∀ v, s.hasVar v → t.vm.inMap.lookup v = some (t.vm.fn v) := by
    intro v hv
    obtain ⟨w, hw⟩ := Option.isSome_iff_exists.1 (h3 v hv)
    have hw' : t.vm.inMap.lookup v = some w := hw
    simp only [ReindexVM.fn, hw', Option.getD_some]
  refine ⟨fun b => ?_, ?_, ?_, ?_⟩
  · show (ClauseSet.sat b t.cnf ∧ _ ∧ _) ↔ _
    have h4' : t.cnf = _ := h4
    have h5' : t.cards = _ := h5
    have h6' : t.pbs = _ := h6
    rw [h4', h5', h6']
    simp only [SatInstance.sat, ClauseSet.sat_map, Clause.sat_rename]
    simp only [List.forall_mem_map, CardConstraint.sat_rename, PbConstraint.sat_rename]
    rfl
  · intro u v hu hv he
    exact inv_injective h1 (hfn u hu) (by rw [hfn v hv, ← he])
  · intro v hv
    refine ⟨(h1.map v _ (hfn v hv)).2.2, ?_⟩
    simp only [ReindexVM.reindex, hfn v hv]
  · have hvar : ∀ l : Lit, s.hasVar l.var → (l.rename t.vm.fn).var < ManageVars.nUsed t.vm := by
      intro l hl
      simp only [Lit.rename, Lit.var_mk']
      exact (h1.map _ _ (hfn _ hl)).2.1
    rintro v (⟨c, hc, l, hl, rfl⟩ | ⟨c, hc, l, hl, rfl⟩ | ⟨c, hc, p, hp, rfl⟩)
    · rw [show t.cnf = _ from h4] at hc
      obtain ⟨c', hc', rfl⟩ := List.mem_map.1 hc
      obtain ⟨l', hl', rfl⟩ := List.mem_map.1 hl
      exact hvar l' (.inl ⟨c', hc', l', hl', rfl⟩)
    · rw [show t.cards = _ from h5] at hc
      obtain ⟨c', hc', rfl⟩ := List.mem_map.1 hc
      have : ∃ l' ∈ c'.lits, l'.rename t.vm.fn = l := by
        cases c' <;> simpa [CardConstraint.rename, CardConstraint.lits] using hl
      obtain ⟨l', hl', rfl⟩ := this
      exact hvar l' (.inr (.inl ⟨c', hc', l', hl', rfl⟩))
    · rw [show t.pbs = _ from h6] at hc
      obtain ⟨c', hc', rfl⟩ := List.mem_map.1 hc
      have : ∃ q ∈ c'.lits, q.1.rename t.vm.fn = p.1 := by
        cases c' <;> (
          simp only [PbConstraint.rename, PbConstraint.lits, List.mem_map] at hp
          obtain ⟨q, hq, rfl⟩ := hp
          exact ⟨q, hq, rfl⟩)
      obtain ⟨q, hq, he⟩ := this
      rw [← he]
      exact hvar q.1 (.inr (.inr ⟨c', hc', q, hq, rfl⟩))

/-- C20: re-indexing an instance with a new re-indexing manager is renaming by an injective function that the
returned manager remembers: an assignment `b` of the new variables satisfies the result iff the assignment
`v ↦ b (f v)` satisfies the original; and since `f` is injective every assignment of the old variables
arises this way. -/
theorem C20_reindex_instance {VM : Type} (s : SatInstance VM) (n : Nat) :
    let t := s.reindex (.fromNextFree n)
    t.Known ∧ ∃ f : Nat → Nat,
      (∀ v, s.hasVar v → t.vm.reverse (f v) = some v ∧ t.vm.reindex v = (f v, t.vm)) ∧
      (∀ u v, s.hasVar u → s.hasVar v → f u = f v → u = v) ∧
      (∀ b : Asg, t.sat b ↔ s.sat (fun v => b (f v))) := by
  intro t
  obtain ⟨h1, h2, h3, h4⟩ := instance_reindex_sem s n _ (ReindexVM.inv_fromNextFree n)
  exact ⟨h4, t.vm.fn, h3, h2, h1⟩

/-- All mapped variables keep their order. -/
def ReindexVM.Mono (m : ReindexVM) : Prop :=
  ∀ u v w x, m.inMap.lookup u = some w → m.inMap.lookup v = some x → u < v → w < x

theorem ReindexVM.fold_mono (base : Nat) (vs : List Nat) (hs : vs.Pairwise (· < ·)) (m : ReindexVM) (hi : m.Inv base)
    (hm : ReindexVM.Mono m) (hlt : ∀ u w, m.inMap.lookup u = some w → ∀ v ∈ vs, u < v) :
    (vs.foldl (fun m v => (m.reindex v).2) m).Inv base ∧ ReindexVM.Mono (vs.foldl (fun m v => (m.reindex v).2) m) ∧
    ReindexVM.Ext m (vs.foldl (fun m v => (m.reindex v).2) m) ∧
    ∀ v ∈ vs, ((vs.foldl (fun m v => (m.reindex v).2) m).inMap.lookup v).isSome := by
  induction vs generalizing m with
  | nil => exact ⟨hi, hm, ReindexVM.Ext.refl m, by simp⟩
  | cons v vs ih =>
    rw [List.foldl_cons]
    obtain ⟨h1, h2, h3, _⟩ := ReindexVM.reindex_spec base m hi v
    have hnone : m.inMap.lookup v = none := by
      cases h : m.inMap.lookup v with
      | none => rfl
      | some w => have := hlt v w h v (List.mem_cons_self ..); omega
    have hnew : ∀ u, (m.reindex v).2.inMap.lookup u = if u = v then some m.nextVar else m.inMap.lookup u := by
      intro u
      simp only [ReindexVM.reindex, hnone, ManageVars.newVar]
      exact ReindexVM.lookup_cons _ _ _ _
    obtain ⟨g1, g2, g3, g4⟩ := ih hs.tail (m.reindex v).2 h1
      (by
        intro a b w x ha hb hab
        rw [hnew] at ha hb
        by_cases hav : a = v
        · by_cases hbv : b = v
          · omega
          · rw [if_neg hbv] at hb
            have := hlt b x hb v (List.mem_cons_self ..)
            omega
        · rw [if_neg hav] at ha
          by_cases hbv : b = v
          · rw [if_pos hbv] at hb; cases hb
            exact (hi.map a w ha).2.1
          · rw [if_neg hbv] at hb; exact hm a b w x ha hb hab)
      (by
        intro u w hu x hx
        rw [hnew] at hu
        by_cases huv : u = v
        · rw [huv]; exact List.rel_of_pairwise_cons hs hx
        · rw [if_neg huv] at hu; exact hlt u w hu x (List.mem_cons_of_mem _ hx))
    refine ⟨g1, g2, ReindexVM.Ext.trans h3 g3, ?_⟩
    intro u hu
    rcases List.mem_cons.1 hu with rfl | hu
    · rw [g3 _ _ h2]; rfl
    · exact g4 u hu

theorem nodup_eraseDups_nat (l : List Nat) : l.eraseDups.Nodup := by
  induction h : l.length using Nat.strongRecOn generalizing l with
  | _ n ih =>
    cases l with
    | nil => simp
    | cons a l =>
      rw [List.eraseDups_cons, List.nodup_cons]
      refine ⟨by simp [List.mem_eraseDups], ih _ ?_ _ rfl⟩
      have := List.length_filter_le (fun b => !b == a) l
      simp at h; omega

theorem SatInstance.varSet_spec {VM : Type} (s : SatInstance VM) :
    s.varSet.Pairwise (· < ·) ∧ ∀ v, v ∈ s.varSet ↔ s.hasVar v := by
  constructor
  · unfold SatInstance.varSet
    generalize (s.cnf.flatten.map Lit.var ++ _ ++ _ : List Nat) = l
    have h1 : (l.eraseDups.mergeSort).Pairwise (fun a b => decide (a ≤ b) = true) :=
      List.pairwise_mergeSort (by simp; omega) (by simp; omega) _
    have h2 : (l.eraseDups.mergeSort).Nodup :=
      (List.mergeSort_perm _ _).nodup_iff.2 (nodup_eraseDups_nat _)
    refine (h1.and h2).imp ?_
    rintro a b ⟨h, h'⟩
    simp at h; omega
  · intro v
    simp only [SatInstance.varSet, (List.mergeSort_perm _ _).mem_iff, List.mem_eraseDups, List.mem_append,
      List.mem_map, List.mem_flatten, List.mem_flatMap, SatInstance.hasVar]
    constructor
    · rintro ((⟨l, ⟨c, hc, hl⟩, rfl⟩ | ⟨c, hc, l, hl, rfl⟩) | ⟨c, hc, p, hp, rfl⟩)
      · exact .inl ⟨c, hc, l, hl, rfl⟩
      · exact .inr (.inl ⟨c, hc, l, hl, rfl⟩)
      · exact .inr (.inr ⟨c, hc, p, hp, rfl⟩)
    · rintro (⟨c, hc, l, hl, rfl⟩ | ⟨c, hc, l, hl, rfl⟩ | ⟨c, hc, p, hp, rfl⟩)
      · exact .inl (.inl ⟨l, ⟨c, hc, hl⟩, rfl⟩)
      · exact .inl (.inr ⟨c, hc, l, hl, rfl⟩)
      · exact .inr ⟨c, hc, p, hp, rfl⟩

/-- C20: `reindex_ordered` additionally preserves the order of the variables, and the new variables are
contiguous: every variable from `n` up to the next free one is the image of a variable of the instance. -/
theorem C20_reindex_ordered {VM : Type} (s : SatInstance VM) (n : Nat) :
    let t := s.reindexOrdered (.fromNextFree n)
    t.Known ∧ ∃ f : Nat → Nat,
      (∀ v, s.hasVar v → t.vm.reverse (f v) = some v ∧ t.vm.reindex v = (f v, t.vm)) ∧
      (∀ u v, s.hasVar u → s.hasVar v → u < v → f u < f v) ∧
      (∀ w, n ≤ w → w < ManageVars.nUsed t.vm → ∃ v, s.hasVar v ∧ f v = w) ∧
      (∀ b : Asg, t.sat b ↔ s.sat (fun v => b (f v))) := by
  intro t
  obtain ⟨hs, hv⟩ := SatInstance.varSet_spec s
  let m := s.varSet.foldl (fun m v => (m.reindex v).2) (ReindexVM.fromNextFree n)
  have hm : m = s.varSet.foldl (fun m v => (m.reindex v).2) (ReindexVM.fromNextFree n) := rfl
  obtain ⟨a1, a2, a3, a4⟩ := ReindexVM.fold_mono n s.varSet hs (.fromNextFree n) (ReindexVM.inv_fromNextFree n)
    (by intro u v w x h; simp [ReindexVM.fromNextFree] at h)
    (by intro u w h; simp [ReindexVM.fromNextFree] at h)
  have ht : t = s.reindex m := rfl
  rw [← hm] at a1 a2 a3 a4
  -- all keys are variables of the instance
  have hkeys : ∀ (vs : List Nat) (m : ReindexVM),
      ∀ u w, (vs.foldl (fun m v => (m.reindex v).2) m).inMap.lookup u = some w →
        u ∈ vs ∨ m.inMap.lookup u = some w := by
    intro vs
    induction vs with
    | nil => intro m u w h; exact .inr h
    | cons v vs ih =>
      intro m u w h
      rw [List.foldl_cons] at h
      rcases ih _ u w h with h | h
      · exact .inl (List.mem_cons_of_mem _ h)
      · by_cases huv : u = v
        · exact .inl (by simp [huv])
        · refine .inr ?_
          unfold ReindexVM.reindex at h
          cases hl : m.inMap.lookup v with
          | some x => simpa [hl] using h
          | none =>
            simp only [hl, ManageVars.newVar] at h
            rw [ReindexVM.lookup_cons, if_neg huv] at h
            exact h
  -- the second pass does not change the manager: all variables are mapped already
  have hsame : ∀ m' : ReindexVM, ∀ v, (m'.inMap.lookup v).isSome → (m'.reindex v).2 = m' := by
    intro m' v hv
    obtain ⟨w, hw⟩ := Option.isSome_iff_exists.1 hv
    simp only [ReindexVM.reindex, hw]
  have hlits : ∀ ls : List Lit, (∀ l ∈ ls, (m.inMap.lookup l.var).isSome) → (m.reindexLits ls).2 = m := by
    intro ls
    induction ls with
    | nil => intro _; rfl
    | cons l ls ih =>
      intro h
      have : (m.reindexLit l).2 = m := hsame m l.var (h l (List.mem_cons_self ..))
      simp only [ReindexVM.reindexLits, this]
      exact ih fun k hk => h k (List.mem_cons_of_mem _ hk)
  have hlist : ∀ {α : Type} (f : ReindexVM → α → α × ReindexVM) (xs : List α), (∀ x ∈ xs, (f m x).2 = m) →
      (SatInstance.reindexList f m xs).2 = m := by
    intro α f xs
    induction xs with
    | nil => intro _; rfl
    | cons x xs ih =>
      intro h
      simp only [SatInstance.reindexList, h x (List.mem_cons_self ..)]
      exact ih fun k hk => h k (List.mem_cons_of_mem _ hk)
  have hmapped : ∀ v, s.hasVar v → (m.inMap.lookup v).isSome := fun v hv' => a4 v ((hv v).2 hv')
  have e1 : (SatInstance.reindexList ReindexVM.reindexLits m s.cnf).2 = m :=
    hlist _ _ fun c hc => hlits c fun l hl => hmapped _ (.inl ⟨c, hc, l, hl, rfl⟩)
  have e2 : (SatInstance.reindexList SatInstance.reindexCard m s.cards).2 = m := by
    refine hlist _ _ fun c hc => ?_
    have := hlits c.lits fun l hl => hmapped _ (.inr (.inl ⟨c, hc, l, hl, rfl⟩))
    cases c <;> exact this
  have e3 : (SatInstance.reindexList SatInstance.reindexPb m s.pbs).2 = m := by
    refine hlist _ _ fun c hc => ?_
    have := hlits (c.lits.map (·.1)) fun l hl => by
      obtain ⟨p, hp, rfl⟩ := List.mem_map.1 hl
      exact hmapped _ (.inr (.inr ⟨c, hc, p, hp, rfl⟩))
    cases c <;> exact this
  have hvm : t.vm = m := by
    rw [ht]
    simp only [SatInstance.reindex, e1, e2, e3]
  obtain ⟨h1, h2, h3, h4⟩ := instance_reindex_sem s n m a1
  refine ⟨h4, t.vm.fn, h3, ?_, ?_, h1⟩
  · intro u v hu hv huv
    rw [hvm]
    obtain ⟨w, hw⟩ := Option.isSome_iff_exists.1 (hmapped u hu)
    obtain ⟨x, hx⟩ := Option.isSome_iff_exists.1 (hmapped v hv)
    simp only [ReindexVM.fn, hw, hx, Option.getD_some]
    exact a2 u v w x hw hx huv
  · intro w hw hw'
    rw [hvm] at hw' ⊢
    obtain ⟨v, hl⟩ := a1.onto w hw hw'
    rcases hkeys s.varSet (.fromNextFree n) v w hl with h | h
    · exact ⟨v, (hv v).1 h, by simp [ReindexVM.fn, hl]⟩
    · simp [ReindexVM.fromNextFree] at h

example : (SatInstance.reindex (VM := BasicVM) ⟨[[x5, x1.neg]], [.ub [x5, x0] 1], [], ⟨6⟩⟩ (.fromNextFree 0)).cnf =
    [[Lit.mk' 0 false, Lit.mk' 1 true]] := by decide

/-- C20 is violated when `new_var` is interleaved: after `new_var`, `reindex(5)` is variable 1, but `reverse`
knows nothing about variable 1 and claims that the freshly handed out variable 0 is 5. -/
theorem C20_violated_new_var :
    let m := (ManageVars.newVar ReindexVM.default).2
    (m.reindex 5).1 = 1 ∧ (m.reindex 5).2.reverse 1 = none ∧ (m.reindex 5).2.reverse 0 = some 5 := by decide

/-- C20 is violated after `forget_from`: variable 0 is forgotten, but the entry stays in the reverse map and
the next re-indexed variable 8 (mapped to 0) is reversed to 7. -/
theorem C20_violated_forget :
    let m := ManageVars.forgetFrom (ReindexVM.default.reindex 7).2 0
    (m.reindex 8).1 = 0 ∧ (m.reindex 8).2.reverse 0 = some 7 := by decide

/-- The documented identity mapping of `from_next_free` does not hold: variable 0 is mapped to 2. -/
theorem C20_violated_identity : ((ReindexVM.fromNextFree 2).reindex 0).1 = 2 := by decide

private theorem fold_set (ps : List (Nat × Nat)) (out : List Nat)
    (hn : ps.Pairwise fun p q => p.1 ≠ q.1) (hb : ∀ p ∈ ps, p.1 < out.length) :
    (ps.foldl (fun out p => out.set p.1 p.2) out).length = out.length ∧
    (∀ p ∈ ps, (ps.foldl (fun out p => out.set p.1 p.2) out)[p.1]? = some p.2) ∧
    (∀ k, (∀ p ∈ ps, p.1 ≠ k) → (ps.foldl (fun out p => out.set p.1 p.2) out)[k]? = out[k]?) := by
  induction ps generalizing out with
  | nil => simp
  | cons p ps ih =>
    rw [List.foldl_cons]
    obtain ⟨h1, h2, h3⟩ := ih (out.set p.1 p.2) hn.tail
      (fun q hq => by rw [List.length_set]; exact hb q (List.mem_cons_of_mem _ hq))
    refine ⟨by rw [h1, List.length_set], ?_, ?_⟩
    · intro q hq
      rcases List.mem_cons.1 hq with rfl | hq
      · rw [h3 q.1 (fun r hr => (List.rel_of_pairwise_cons hn hr).symm)]
        exact List.getElem?_set_self (hb q (List.mem_cons_self ..))
      · exact h2 q hq
    · intro k hk
      rw [h3 k (fun q hq => hk q (List.mem_cons_of_mem _ hq))]
      exact List.getElem?_set_ne (hk p (List.mem_cons_self ..))

/-- C20 for `RandReindVarManager`: whatever permutation the shuffle produces, re-indexing is injective on all
variables and `reverse` undoes it. -/
theorem C20_random (n : Nat) (perm : List Nat) (hp : perm.Perm (List.range n)) :
    (∀ v, (RandReindVM.init perm).reverse ((RandReindVM.init perm).reindex v) = some v) ∧
    (∀ u v, (RandReindVM.init perm).reindex u = (RandReindVM.init perm).reindex v → u = v) := by
  have hlen : perm.length = n := by rw [hp.length_eq, List.length_range]
  have hnd : perm.Nodup := hp.nodup_iff.2 List.nodup_range
  have hmem : ∀ v ∈ perm, v < n := fun v hv => List.mem_range.1 (hp.mem_iff.1 hv)
  obtain ⟨f1, f2, f3⟩ := fold_set perm.zipIdx (List.replicate perm.length 0)
    (by
      have : (perm.zipIdx.map (·.1)).Nodup := by simpa using hnd
      exact List.pairwise_map.1 this)
    (by
      intro p hp'
      rw [List.length_replicate, hlen]
      exact hmem _ (List.mem_zipIdx_iff_getElem?.1 hp' |> List.mem_of_getElem?))
  have hrev : ∀ v, (RandReindVM.init perm).reverse ((RandReindVM.init perm).reindex v) = some v := by
    intro v
    simp only [RandReindVM.reverse, RandReindVM.reindex, RandReindVM.init]
    cases hv : perm[v]? with
    | some w =>
      have h2 := f2 (w, v) (List.mem_zipIdx_iff_getElem?.2 hv)
      simp only at h2
      simp only [Option.getD_some, h2]
    | none =>
      have : perm.length ≤ v := List.getElem?_eq_none_iff.1 hv
      have h2 : (perm.zipIdx.foldl (fun out p => out.set p.1 p.2) (List.replicate perm.length 0))[v]? = none := by
        rw [List.getElem?_eq_none_iff, f1, List.length_replicate]; exact this
      simp only [Option.getD_none, h2]
  refine ⟨hrev, fun u v h => ?_⟩
  have h1 := hrev u
  rw [h, hrev v] at h1
  exact (Option.some.inj h1).symm

example : ([2, 0, 1] : List Nat).Perm (List.range 3) ∧ (RandReindVM.init [2, 0, 1]).outMap = [1, 2, 0] := by decide

end RustSat
