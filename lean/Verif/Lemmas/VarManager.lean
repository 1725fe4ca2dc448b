import Verif.Spec.Instance
import Verif.Lemmas.Sums
import Verif.Lemmas.Lit
/-
Lemmas about variable managers.
-/
namespace RustSat

/-- Managers for which `n_used` behaves as documented (all the managers of the library, see C19). -/
class LawfulVM (M : Type) [ManageVars M] : Prop where
  newVar_fst : ∀ m : M, (ManageVars.newVar m).1 = ManageVars.nUsed m
  newVar_snd : ∀ m : M, ManageVars.nUsed (ManageVars.newVar m).2 = ManageVars.nUsed m + 1
  increase : ∀ (m : M) v, ManageVars.nUsed (ManageVars.increaseNextFree m v).2 = max (ManageVars.nUsed m) v
  increase_fst : ∀ (m : M) v, (ManageVars.increaseNextFree m v).1 = decide (ManageVars.nUsed m < v)
  combine : ∀ m o : M, ManageVars.nUsed (ManageVars.combine m o) = max (ManageVars.nUsed m) (ManageVars.nUsed o)
  forget : ∀ (m : M) v, ManageVars.nUsed (ManageVars.forgetFrom m v) = min (ManageVars.nUsed m) v
  maxVar : ∀ m : M, ManageVars.maxVar m =
    if ManageVars.nUsed m = 0 then none else some (ManageVars.nUsed m - 1)

instance : LawfulVM BasicVM where
  newVar_fst _ := rfl
  newVar_snd _ := rfl
  increase m v := by simp only [ManageVars.increaseNextFree, ManageVars.nUsed]; split <;> simp <;> omega
  increase_fst m v := by simp only [ManageVars.increaseNextFree, ManageVars.nUsed]; split <;> simp <;> omega
  combine m o := by simp only [ManageVars.combine, ManageVars.nUsed]; split <;> (try simp only) <;> omega
  forget _ _ := rfl
  maxVar _ := rfl

instance : LawfulVM ReindexVM where
  newVar_fst _ := rfl
  newVar_snd _ := rfl
  increase m v := by simp only [ManageVars.increaseNextFree, ManageVars.nUsed]; split <;> simp <;> omega
  increase_fst m v := by simp only [ManageVars.increaseNextFree, ManageVars.nUsed]; split <;> simp <;> omega
  combine m o := by simp only [ManageVars.combine, ManageVars.nUsed]; split <;> omega
  forget _ _ := rfl
  maxVar _ := rfl

instance {κ : Type} : LawfulVM (ObjectVM κ) where
  newVar_fst _ := rfl
  newVar_snd _ := rfl
  increase m v := by simp only [ManageVars.increaseNextFree, ManageVars.nUsed]; split <;> simp <;> omega
  increase_fst m v := by simp only [ManageVars.increaseNextFree, ManageVars.nUsed]; split <;> simp <;> omega
  combine m o := by simp only [ManageVars.combine, ManageVars.nUsed]; split <;> omega
  forget _ _ := rfl
  maxVar _ := rfl

section
variable {VM : Type} [ManageVars VM] [LawfulVM VM]

theorem nUsed_markLits (m : VM) (ls : List Lit) :
    ManageVars.nUsed m ≤ ManageVars.nUsed (ManageVars.markLits m ls) ∧
    ∀ l ∈ ls, l.var < ManageVars.nUsed (ManageVars.markLits m ls) := by
  unfold ManageVars.markLits
  induction ls generalizing m with
  | nil => simp
  | cons l ls ih =>
    rw [List.foldl_cons]
    have h := ih (ManageVars.markUsed m l.var).2
    simp only [ManageVars.markUsed, LawfulVM.increase] at h
    refine ⟨by simp only [ManageVars.markUsed]; omega, ?_⟩
    intro k hk
    rcases List.mem_cons.1 hk with rfl | hk
    · simp only [ManageVars.markUsed]; omega
    · exact h.2 k hk

end

/-! ### Re-indexing -/
namespace ReindexVM

/-- Invariant of a manager that has only seen `reindex` calls since its creation with `base` free variables:
the keys are mapped injectively to `base..`, and `out_map` inverts the map. -/
structure Inv (base : Nat) (m : ReindexVM) : Prop where
  len : m.outMap.length = m.nextVar
  base_le : base ≤ m.nextVar
  map : ∀ v w, m.inMap.lookup v = some w → base ≤ w ∧ w < m.nextVar ∧ m.outMap[w]? = some v
  onto : ∀ w, base ≤ w → w < m.nextVar → ∃ v, m.inMap.lookup v = some w

theorem inv_fromNextFree (n : Nat) : Inv n (fromNextFree n) where
  len := by simp [fromNextFree]
  base_le := by simp [fromNextFree]
  map := by simp [fromNextFree]
  onto := by simp only [fromNextFree]; intros; omega

theorem inv_default : Inv 0 default := by
  have := inv_fromNextFree 0
  exact this

theorem lookup_cons (v u w : Nat) (m : List (Nat × Nat)) :
    ((v, w) :: m).lookup u = if u = v then some w else m.lookup u := by
  simp only [List.lookup_cons]
  by_cases h : u = v
  · simp [h]
  · have : (u == v) = false := by simp [h]
    rw [this, if_neg h]

theorem reindex_spec (base : Nat) (m : ReindexVM) (h : Inv base m) (v : Nat) :
    Inv base (m.reindex v).2 ∧ (m.reindex v).2.inMap.lookup v = some (m.reindex v).1 ∧
    (∀ u w, m.inMap.lookup u = some w → (m.reindex v).2.inMap.lookup u = some w) ∧
    m.nextVar ≤ (m.reindex v).2.nextVar := by
  unfold reindex
  cases hl : m.inMap.lookup v with
  | some w => exact ⟨h, hl, fun u w hu => hu, Nat.le_refl _⟩
  | none =>
    simp only [ManageVars.newVar]
    refine ⟨⟨by simp [h.len], by have := h.base_le; simp only; omega, ?_, ?_⟩, by simp [lookup_cons], ?_,
      by simp⟩
    · intro u w
      simp only [lookup_cons]
      by_cases hu : u = v
      · rw [if_pos hu]
        intro hw; cases hw
        refine ⟨h.base_le, by omega, ?_⟩
        rw [List.getElem?_append_right (by rw [h.len]; exact Nat.le_refl _), h.len]
        simp [hu]
      · rw [if_neg hu]
        intro hw
        obtain ⟨h1, h2, h3⟩ := h.map u w hw
        refine ⟨h1, by omega, ?_⟩
        rw [List.getElem?_append_left (by rw [h.len]; exact h2)]
        exact h3
    · intro w h1 h2
      simp only at h2
      by_cases hw : w = m.nextVar
      · exact ⟨v, by simp [lookup_cons, hw]⟩
      · obtain ⟨u, hu⟩ := h.onto w h1 (by omega)
        refine ⟨u, ?_⟩
        simp only [lookup_cons]
        by_cases huv : u = v
        · rw [huv, hl] at hu; cases hu
        · rw [if_neg huv, hu]
    · intro u w hu
      simp only [lookup_cons]
      by_cases huv : u = v
      · rw [huv, hl] at hu; cases hu
      · rw [if_neg huv, hu]

/-- The renaming of a manager: mapped variables go to their image, others stay. -/
def fn (m : ReindexVM) (v : Nat) : Nat := (m.inMap.lookup v).getD v

/-- `m'` extends the map of `m`. -/
def Ext (m m' : ReindexVM) : Prop := ∀ u w, m.inMap.lookup u = some w → m'.inMap.lookup u = some w

theorem Ext.refl (m : ReindexVM) : Ext m m := fun _ _ h => h
theorem Ext.trans {m m' m'' : ReindexVM} (h : Ext m m') (h' : Ext m' m'') : Ext m m'' :=
  fun u w hu => h' u w (h u w hu)

theorem reindexLit_spec (base : Nat) (m : ReindexVM) (h : Inv base m) (l : Lit) :
    Inv base (m.reindexLit l).2 ∧ Ext m (m.reindexLit l).2 ∧
    ((m.reindexLit l).2.inMap.lookup l.var).isSome ∧
    ∀ m', Ext (m.reindexLit l).2 m' → (m.reindexLit l).1 = l.rename m'.fn := by
  obtain ⟨h1, h2, h3, _⟩ := reindex_spec base m h l.var
  unfold reindexLit
  simp only
  refine ⟨h1, h3, by rw [h2]; rfl, fun m' he => ?_⟩
  have : m'.fn l.var = (m.reindex l.var).1 := by simp [fn, he _ _ h2]
  simp only [Lit.rename, this, Lit.isPos_eq, Lit.pos, Lit.negOf]
  cases l.isNeg <;> simp

theorem reindexLits_spec (base : Nat) (ls : List Lit) (m : ReindexVM) (h : Inv base m) :
    Inv base (m.reindexLits ls).2 ∧ Ext m (m.reindexLits ls).2 ∧
    (∀ l ∈ ls, ((m.reindexLits ls).2.inMap.lookup l.var).isSome) ∧
    ∀ m', Ext (m.reindexLits ls).2 m' → (m.reindexLits ls).1 = ls.map (Lit.rename m'.fn) := by
  induction ls generalizing m with
  | nil => exact ⟨h, Ext.refl m, by simp, fun _ _ => rfl⟩
  | cons l ls ih =>
    obtain ⟨h1, h2, h3, h4⟩ := reindexLit_spec base m h l
    obtain ⟨g1, g2, g3, g4⟩ := ih (m.reindexLit l).2 h1
    simp only [reindexLits]
    refine ⟨g1, h2.trans g2, ?_, fun m' he => ?_⟩
    · intro k hk
      rcases List.mem_cons.1 hk with rfl | hk
      · obtain ⟨w, hw⟩ := Option.isSome_iff_exists.1 h3
        rw [g2 _ _ hw]; rfl
      · exact g3 k hk
    · rw [List.map_cons, g4 m' he, h4 m' (g2.trans he)]

end ReindexVM

/-- What a stateful re-indexing of one object (with variables `vars`) does. -/
def ReindexSpec {α : Type} (base : Nat) (f : ReindexVM → α → α × ReindexVM) (ren : (Nat → Nat) → α → α)
    (vars : α → List Nat) : Prop :=
  ∀ m x, ReindexVM.Inv base m → ReindexVM.Inv base (f m x).2 ∧ ReindexVM.Ext m (f m x).2 ∧
    (∀ v ∈ vars x, ((f m x).2.inMap.lookup v).isSome) ∧
    ∀ m', ReindexVM.Ext (f m x).2 m' → (f m x).1 = ren m'.fn x

theorem reindexList_spec {α : Type} {base : Nat} {f : ReindexVM → α → α × ReindexVM}
    {ren : (Nat → Nat) → α → α} {vars : α → List Nat} (h : ReindexSpec base f ren vars) :
    ReindexSpec base (SatInstance.reindexList f) (fun g => List.map (ren g)) (fun xs => xs.flatMap vars) := by
  intro m xs hi
  induction xs generalizing m with
  | nil => exact ⟨hi, ReindexVM.Ext.refl m, by simp, fun _ _ => rfl⟩
  | cons x xs ih =>
    obtain ⟨h1, h2, h3, h4⟩ := h m x hi
    obtain ⟨g1, g2, g3, g4⟩ := ih (f m x).2 h1
    simp only [SatInstance.reindexList]
    refine ⟨g1, h2.trans g2, ?_, fun m' he => ?_⟩
    · intro k hk
      rw [List.flatMap_cons, List.mem_append] at hk
      rcases hk with hk | hk
      · obtain ⟨w, hw⟩ := Option.isSome_iff_exists.1 (h3 k hk)
        rw [g2 _ _ hw]; rfl
      · exact g3 k hk
    · rw [List.map_cons, g4 m' he, h4 m' (g2.trans he)]

/-- Renaming constraints. -/
def CardConstraint.rename (f : Nat → Nat) : CardConstraint → CardConstraint
  | .ub l b => .ub (l.map (Lit.rename f)) b
  | .lb l b => .lb (l.map (Lit.rename f)) b
  | .eq l b => .eq (l.map (Lit.rename f)) b
/-- Renaming constraints. -/
def PbConstraint.rename (f : Nat → Nat) : PbConstraint → PbConstraint
  | .ub l w b => .ub (l.map fun p => (p.1.rename f, p.2)) w b
  | .lb l w b => .lb (l.map fun p => (p.1.rename f, p.2)) w b
  | .eq l w b => .eq (l.map fun p => (p.1.rename f, p.2)) w b

theorem reindexSpec_lits (base : Nat) :
    ReindexSpec base ReindexVM.reindexLits (fun g => List.map (Lit.rename g)) (fun ls => ls.map Lit.var) := by
  intro m ls hi
  obtain ⟨h1, h2, h3, h4⟩ := ReindexVM.reindexLits_spec base ls m hi
  exact ⟨h1, h2, by simpa using h3, h4⟩

theorem reindexSpec_card (base : Nat) :
    ReindexSpec base SatInstance.reindexCard CardConstraint.rename (fun c => c.lits.map Lit.var) := by
  intro m c hi
  cases c with
  | ub l b | lb l b | eq l b =>
    obtain ⟨h1, h2, h3, h4⟩ := reindexSpec_lits base m l hi
    exact ⟨h1, h2, h3, fun m' he => by simp only [SatInstance.reindexCard, CardConstraint.rename, h4 m' he]⟩

theorem reindexSpec_wlits (base : Nat) :
    ReindexSpec base SatInstance.reindexWLits (fun g ls => ls.map fun p => (p.1.rename g, p.2))
      (fun ls => ls.map fun p => p.1.var) := by
  intro m ls hi
  obtain ⟨h1, h2, h3, h4⟩ := reindexSpec_lits base m (ls.map (·.1)) hi
  refine ⟨h1, h2, fun v hv => h3 v (by simpa [List.map_map, Function.comp_def] using hv), fun m' he => ?_⟩
  simp only [SatInstance.reindexWLits, h4 m' he]
  simp [List.zip_map', List.map_map, Function.comp_def]

theorem reindexSpec_pb (base : Nat) :
    ReindexSpec base SatInstance.reindexPb PbConstraint.rename (fun c => c.lits.map fun p => p.1.var) := by
  intro m c hi
  cases c with
  | ub l w b | lb l w b | eq l w b =>
    obtain ⟨h1, h2, h3, h4⟩ := reindexSpec_wlits base m l hi
    exact ⟨h1, h2, h3, fun m' he => by simp only [SatInstance.reindexPb, PbConstraint.rename, h4 m' he]⟩

theorem holds_rename (a : Asg) (f : Nat → Nat) (l : Lit) : (l.rename f).holds a = l.holds (fun v => a (f v)) := by
  simp [Lit.holds, Lit.rename]

theorem countTrue_rename (a : Asg) (f : Nat → Nat) (ls : List Lit) :
    countTrue a (ls.map (Lit.rename f)) = countTrue (fun v => a (f v)) ls := by
  induction ls with
  | nil => rfl
  | cons l ls ih => simp [ih, holds_rename]

theorem wsum_rename (a : Asg) (f : Nat → Nat) (ls : List (Lit × Nat)) :
    wsum a (ls.map fun p => (p.1.rename f, p.2)) = wsum (fun v => a (f v)) ls := by
  induction ls with
  | nil => rfl
  | cons l ls ih => simp [ih, holds_rename]

theorem CardConstraint.sat_rename (a : Asg) (f : Nat → Nat) (c : CardConstraint) :
    (c.rename f).sat a ↔ c.sat (fun v => a (f v)) := by
  cases c <;> simp [CardConstraint.rename, CardConstraint.sat, countTrue_rename]

theorem PbConstraint.sat_rename (a : Asg) (f : Nat → Nat) (c : PbConstraint) :
    (c.rename f).sat a ↔ c.sat (fun v => a (f v)) := by
  cases c <;> simp [PbConstraint.rename, PbConstraint.sat, wsum_rename]

theorem Clause.sat_rename (a : Asg) (f : Nat → Nat) (c : Clause) :
    Clause.sat a (c.map (Lit.rename f)) ↔ Clause.sat (fun v => a (f v)) c := by
  simp only [Clause.sat, List.mem_map]
  constructor
  · rintro ⟨_, ⟨l, hl, rfl⟩, h⟩; exact ⟨l, hl, by rwa [holds_rename] at h⟩
  · rintro ⟨l, hl, h⟩; exact ⟨_, ⟨l, hl, rfl⟩, by rwa [holds_rename]⟩

end RustSat
