import Verif.Lemmas.OpbAccept
import Verif.Lemmas.Opb3
import Verif.Spec.OpbAccept
/-
Statements of accepted OPB files have numbers in range (C95).
-/
namespace RustSat.OpbSpec
open Opb
variable {VM : Type} [ManageVars VM]

theorem accumulate_range : ∀ (sum : List (Lit × Int)) (ts : List (Nat × Lit)) (off : Int) (r : List (Nat × Lit) × Int),
    isizeMin ≤ off → accumulate ts off sum = some r → isizeMin ≤ off + negSum sum
  | [], ts, off, r, h0, h => by cases h; simpa [negSum] using h0
  | (l, c) :: rest, ts, off, r, h0, h => by
    rw [accumulate] at h
    by_cases hc : 0 < c
    · rw [if_pos hc] at h
      have := accumulate_range rest _ _ r h0 h
      rw [negSum, if_neg (by omega)]
      omega
    · rw [if_neg hc] at h
      by_cases ho : isizeMin ≤ off + c
      · rw [if_pos ho] at h
        have := accumulate_range rest _ _ r ho h
        rw [negSum]
        split <;> omega
      · rw [if_neg ho] at h; cases h

theorem readable_iff (st : Stmt) : (parsed st).isSome = true ↔ Readable st := by
  cases st with
  | constr sum op b =>
    have e : (isizeMax : Int) = 9223372036854775807 := rfl
    cases op with
    | le => exact ⟨fun _ h => by (rcases h with h | h <;> cases h), fun _ => rfl⟩
    | ge => exact ⟨fun _ h => by (rcases h with h | h <;> cases h), fun _ => rfl⟩
    | eq => exact ⟨fun _ h => by (rcases h with h | h <;> cases h), fun _ => rfl⟩
    | lt =>
      by_cases hb : b < 9223372036854775807
      · exact ⟨fun _ _ => hb, fun _ => by simp [parsed, mkConstr, e, hb]⟩
      · exact ⟨fun h => by simp [parsed, mkConstr, e, hb] at h, fun h => absurd (h (Or.inl rfl)) hb⟩
    | gt =>
      by_cases hb : b < 9223372036854775807
      · exact ⟨fun _ _ => hb, fun _ => by simp [parsed, mkConstr, e, hb]⟩
      · exact ⟨fun h => by simp [parsed, mkConstr, e, hb] at h, fun h => absurd (h (Or.inr rfl)) hb⟩
  | obj se sum =>
    constructor
    · intro h
      cases ha : accumulate [] 0 sum with
      | none => rw [parsed, ha] at h; cases h
      | some r =>
        have := accumulate_range sum [] 0 r (by decide) ha
        rw [Int.zero_add] at this
        exact this
    · intro h
      obtain ⟨r, h1, _⟩ := accumulate_some sum [] 0 (by rw [Int.zero_add]; exact h)
      simp [parsed, h1]

theorem Reads.readable {sts : List Stmt} {ds : List Data} (h : Reads sts ds) : ∀ st ∈ sts, Readable st := by
  induction h with
  | nil => intro st hst; cases hst
  | cmt _ ih => exact ih
  | cons hp _ ih =>
    intro st hst
    rcases List.mem_cons.1 hst with rfl | hst
    · exact (readable_iff _).1 (by rw [hp]; rfl)
    · exact ih st hst

theorem fits_obj {se : Sense} {sum : List (Lit × Int)} {r : List (Nat × Lit) × Int} {ob : Objective}
    (hr : accumulate [] 0 sum = some r) (h : Obj.toObjective ⟨se, r.1, r.2⟩ = .ok ob) : Fits (.obj se sum) := by
  have hn := accumulate_range sum [] 0 r (by decide) hr
  have hneg := negSum_nonpos sum
  rw [Int.zero_add] at hn
  have hmin : isizeMin = -9223372036854775808 := rfl
  have hmax : isizeMax = 9223372036854775807 := rfl
  obtain ⟨r', h1, h2, h3⟩ := accumulate_some sum [] 0 (by rw [Int.zero_add]; exact hn)
  rw [hr] at h1
  cases h1
  cases se with
  | minimize => exact ⟨by omega, by omega⟩
  | maximize =>
    have h3' : (r.1.map Prod.fst).sum = absSum sum := by rw [h3]; simp
    unfold Obj.toObjective at h
    simp only [h3'] at h
    by_cases g1 : usizeMax < absSum sum
    · rw [if_pos g1] at h; cases h
    · rw [if_neg g1] at h
      by_cases g2 : isizeMax < absSum sum
      · rw [if_pos g2] at h; cases h
      · rw [if_neg g2] at h
        unfold isize at h
        by_cases g3 : isizeMin ≤ r.2 - (absSum sum : Nat) ∧ r.2 - (absSum sum : Nat) ≤ isizeMax
        · rw [h2, Int.zero_add] at g3
          exact ⟨⟨by omega, by omega⟩, by omega⟩
        · rw [if_neg g3] at h; cases h

theorem Reads.fits {sts : List Stmt} {ds : List Data} (h : Reads sts ds)
    (ho : ∀ o, Data.obj o ∈ ds → ∃ ob, o.toObjective = .ok ob) : ∀ st ∈ sts, Fits st := by
  induction h with
  | nil => intro st hst; cases hst
  | cmt _ ih => exact ih fun o hm => ho o (List.mem_cons_of_mem _ hm)
  | @cons st sts d ds hp _ ih =>
    intro st' hst
    rcases List.mem_cons.1 hst with rfl | hst
    · cases st' with
      | constr sum op b => exact (readable_iff (.constr sum op b)).1 (by rw [hp]; rfl)
      | obj se sum =>
        rw [parsed] at hp
        cases ha : accumulate [] 0 sum with
        | none => rw [ha] at hp; cases hp
        | some r =>
          rw [ha] at hp
          cases hp
          obtain ⟨ob, hob⟩ := ho _ List.mem_cons_self
          exact fits_obj ha hob
    · exact ih (fun o hm => ho o (List.mem_cons_of_mem _ hm)) st' hst

theorem Reads.objectives_nil {sts : List Stmt} {ds : List Data} (h : Reads sts ds) (ho : ∀ o, Data.obj o ∉ ds) : objectives sts = [] := by
  induction h with
  | nil => rfl
  | cmt _ ih => exact ih fun o hm => ho o (List.mem_cons_of_mem _ hm)
  | @cons st sts d ds hp _ ih =>
    cases st with
    | constr sum op b => exact ih fun o hm => ho o (List.mem_cons_of_mem _ hm)
    | obj se sum =>
      rw [parsed] at hp
      cases ha : accumulate [] 0 sum with
      | none => rw [ha] at hp; cases hp
      | some r => rw [ha] at hp; cases hp; exact absurd List.mem_cons_self (ho _)

theorem satLoop_inv : ∀ (L : List (Res FioError Data)) (s i : SatInstance VM), s.opbLoop L = .ok i →
    ∃ ds : List Data, L = ds.map .ok ∧ ∀ o, Data.obj o ∉ ds
  | [], s, i, h => ⟨[], rfl, fun o hm => nomatch hm⟩
  | .ok (.cmt t) :: L, s, i, h => by
    obtain ⟨ds, e, h1⟩ := satLoop_inv L s i h
    exact ⟨.cmt t :: ds, by rw [e]; rfl, fun o hm => h1 o (by simpa using hm)⟩
  | .ok (.constr c) :: L, s, i, h => by
    obtain ⟨ds, e, h1⟩ := satLoop_inv L _ i h
    exact ⟨.constr c :: ds, by rw [e]; rfl, fun o hm => h1 o (by simpa using hm)⟩
  | .ok (.obj o) :: L, s, i, h => by cases h
  | .err e :: L, s, i, h => by cases h
  | .panic :: L, s, i, h => by cases h

theorem optLoop_inv : ∀ (L : List (Res FioError Data)) (s : SatInstance VM) (obj : Option Obj) (i : OptInstance VM),
    OptInstance.opbLoop s obj L = .ok i →
    ∃ ds : List Data, L = ds.map .ok ∧ ∀ o, (obj = some o ∨ Data.obj o ∈ ds) → ∃ ob, o.toObjective = .ok ob
  | [], s, obj, i, h => by
    refine ⟨[], rfl, fun o hm => ?_⟩
    rcases hm with rfl | hm
    · rw [OptInstance.opbLoop] at h
      cases ho : o.toObjective with
      | ok ob => exact ⟨ob, rfl⟩
      | err e => rw [ho] at h; cases h
      | panic => rw [ho] at h; cases h
    · cases hm
  | .ok (.cmt t) :: L, s, obj, i, h => by
    obtain ⟨ds, e, h1⟩ := optLoop_inv L s obj i h
    exact ⟨.cmt t :: ds, by rw [e]; rfl, fun o hm => h1 o (by simpa using hm)⟩
  | .ok (.constr c) :: L, s, obj, i, h => by
    obtain ⟨ds, e, h1⟩ := optLoop_inv L _ obj i h
    exact ⟨.constr c :: ds, by rw [e]; rfl, fun o hm => h1 o (by simpa using hm)⟩
  | .ok (.obj o) :: L, s, obj, i, h => by
    rw [OptInstance.opbLoop] at h
    cases obj with
    | some o' => cases h
    | none =>
      obtain ⟨ds, e, h1⟩ := optLoop_inv L s (some o) i h
      refine ⟨.obj o :: ds, by rw [e]; rfl, fun o' hm => h1 o' ?_⟩
      rcases hm with hm | hm
      · cases hm
      · rcases List.mem_cons.1 hm with hm | hm
        · cases hm; exact Or.inl rfl
        · exact Or.inr hm
  | .err e :: L, s, obj, i, h => by cases h
  | .panic :: L, s, obj, i, h => by cases h

theorem multiLoop_inv : ∀ (L : List (Res FioError Data)) (s : SatInstance VM) (objs : List Objective) (i : MultiOptInstance VM),
    MultiOptInstance.opbLoop s objs L = .ok i →
    ∃ ds : List Data, L = ds.map .ok ∧ ∀ o, Data.obj o ∈ ds → ∃ ob, o.toObjective = .ok ob
  | [], s, objs, i, h => ⟨[], rfl, fun o hm => nomatch hm⟩
  | .ok (.cmt t) :: L, s, objs, i, h => by
    obtain ⟨ds, e, h1⟩ := multiLoop_inv L s objs i h
    exact ⟨.cmt t :: ds, by rw [e]; rfl, fun o hm => h1 o (by simpa using hm)⟩
  | .ok (.constr c) :: L, s, objs, i, h => by
    obtain ⟨ds, e, h1⟩ := multiLoop_inv L _ objs i h
    exact ⟨.constr c :: ds, by rw [e]; rfl, fun o hm => h1 o (by simpa using hm)⟩
  | .ok (.obj o) :: L, s, objs, i, h => by
    rw [MultiOptInstance.opbLoop] at h
    cases ho : o.toObjective with
    | err e => rw [ho] at h; cases h
    | panic => rw [ho] at h; cases h
    | ok ob =>
      rw [ho] at h
      obtain ⟨ds, e, h1⟩ := multiLoop_inv L _ _ i h
      refine ⟨.obj o :: ds, by rw [e]; rfl, fun o' hm => ?_⟩
      rcases List.mem_cons.1 hm with hm | hm
      · cases hm; exact ⟨ob, ho⟩
      · exact h1 o' hm
  | .err e :: L, s, objs, i, h => by cases h
  | .panic :: L, s, objs, i, h => by cases h

end RustSat.OpbSpec
