import Verif.Lemmas.Opb
import Verif.Lemmas.Dimacs2
import Verif.Props.Constraints
import Verif.Props.Objective
import Verif.Props.Instance

/-
The meaning of the data read from OPB files, and the texts produced by the writers.
-/

namespace RustSat.OpbSpec
open Text P Opb DimacsSpec Dimacs

/-! ### Meaning -/

theorem accumulate_value (a : Asg) : ∀ (sum : List (Lit × Int)) (ts : List (Nat × Lit)) (off : Int) (r : List (Nat × Lit) × Int),
    accumulate ts off sum = some r → termsValue a r.1 + r.2 = termsValue a ts + off + isum a sum := by
  have happ : ∀ (ts : List (Nat × Lit)) (w : Nat) (l : Lit),
      termsValue a (ts ++ [(w, l)]) = termsValue a ts + if l.holds a then (w : Int) else 0 := by
    intro ts w l
    induction ts with
    | nil => simp [termsValue]
    | cons t ts ih => simp only [List.cons_append, termsValue, ih]; omega
  intro sum
  induction sum with
  | nil => intro ts off r h; rw [accumulate, Option.some.injEq] at h; subst h; simp [isum]
  | cons p sum ih =>
    obtain ⟨l, c⟩ := p
    intro ts off r h
    rw [accumulate] at h
    by_cases hc : 0 < c
    · rw [if_pos hc] at h
      rw [ih _ _ _ h, happ, isum]
      split <;> omega
    · rw [if_neg hc] at h
      by_cases ho : isizeMin ≤ off + c
      · rw [if_pos ho] at h
        rw [ih _ _ _ h, happ, isum, Lit.holds_neg]
        cases l.holds a <;> simp <;> omega
      · rw [if_neg ho] at h; cases h

theorem negSum_nonpos (sum : List (Lit × Int)) : negSum sum ≤ 0 := by
  induction sum with
  | nil => simp [negSum]
  | cons p sum ih => obtain ⟨l, c⟩ := p; rw [negSum]; split <;> omega

theorem accumulate_some : ∀ (sum : List (Lit × Int)) (ts : List (Nat × Lit)) (off : Int),
    isizeMin ≤ off + negSum sum → ∃ r, accumulate ts off sum = some r ∧ r.2 = off + negSum sum ∧
      (r.1.map Prod.fst).sum = (ts.map Prod.fst).sum + absSum sum := by
  intro sum
  induction sum with
  | nil => intro ts off h; exact ⟨_, rfl, by simp [negSum], by simp [absSum]⟩
  | cons p sum ih =>
    obtain ⟨l, c⟩ := p
    intro ts off h
    have hn := negSum_nonpos sum
    rw [negSum] at h ⊢
    rw [accumulate, absSum]
    by_cases hc : 0 < c
    · have hc' : ¬ c < 0 := by omega
      rw [if_pos hc]
      rw [if_neg hc'] at h ⊢
      obtain ⟨r, h1, h2, h3⟩ := ih (ts ++ [(c.natAbs, l)]) off (by omega)
      refine ⟨r, h1, by omega, ?_⟩
      rw [h3]; simp; omega
    · rw [if_neg hc]
      have hh : isizeMin ≤ off + c + negSum sum := by split at h <;> omega
      rw [if_pos (by omega)]
      obtain ⟨r, h1, h2, h3⟩ := ih (ts ++ [(c.natAbs, l.neg)]) (off + c) hh
      refine ⟨r, h1, by rw [h2]; split <;> omega, ?_⟩
      rw [h3]; simp; omega

theorem Fits.neg {se : Sense} {sum : List (Lit × Int)} (h : Fits (.obj se sum)) : isizeMin ≤ 0 + negSum sum := by
  have e : isizeMin = -9223372036854775808 := rfl
  cases se with
  | minimize => have h' : InRange (negSum sum) := h; have := h'.1; omega
  | maximize => have h' : InRange (negSum sum - absSum sum) := h.1; have := h'.1; omega

theorem Fits.parsed {st : Stmt} (h : Fits st) : (parsed st).isSome = true := by
  cases st with
  | constr sum op b =>
    have h' : op = .lt ∨ op = .gt → b < 9223372036854775807 := h
    have e : (isizeMax : Int) = 9223372036854775807 := rfl
    cases op with
    | lt => have := h' (Or.inl rfl); simp [OpbSpec.parsed, mkConstr, e, this]
    | gt => have := h' (Or.inr rfl); simp [OpbSpec.parsed, mkConstr, e, this]
    | le => rfl
    | ge => rfl
    | eq => rfl
  | obj se sum =>
    obtain ⟨r, h1, _⟩ := accumulate_some sum [] 0 h.neg
    simp [OpbSpec.parsed, h1]

/-- The constraint read for a relation other than `<` means that relation. -/
theorem mkConstr_sat {sum : List (Lit × Int)} {op : Op} {b : Int} {c : PbConstraint} (h : mkConstr sum op b = some c)
    (hop : op ≠ .lt) (a : Asg) : c.sat a ↔ rel op (isum a sum) b := by
  have h11 := C11_new_signed sum b a
  have h12 := C11_new_signed sum (b + 1) a
  cases op with
  | le => cases h; exact h11.1
  | ge => cases h; exact h11.2.1
  | lt => exact absurd rfl hop
  | gt =>
    rw [mkConstr] at h
    split at h
    · cases h
      rw [h12.2.1, rel]
      omega
    · cases h
  | eq => cases h; exact h11.2.2

theorem parsed_means {st : Stmt} {d : Data} (h : parsed st = some d) (hn : NoLt st) : Means st d := by
  cases st with
  | constr sum op b =>
    simp only [parsed, Option.map_eq_some_iff] at h
    obtain ⟨c, hc, hd⟩ := h
    subst hd
    exact fun a => mkConstr_sat hc hn a
  | obj se sum =>
    simp only [parsed, Option.map_eq_some_iff] at h
    obtain ⟨r, hr, hd⟩ := h
    subst hd
    refine ⟨rfl, fun a => ?_⟩
    have := accumulate_value a sum [] 0 r hr
    simpa [termsValue] using this

theorem Reads.means {sts : List Stmt} {ds : List Data} (h : Reads sts ds) (hn : ∀ st ∈ sts, NoLt st) : AllMean sts ds := by
  induction h with
  | nil => exact .nil
  | cmt _ ih => exact .cmt (ih hn)
  | cons h1 _ ih =>
    exact .cons (parsed_means h1 (hn _ List.mem_cons_self)) (ih fun st hst => hn st (List.mem_cons_of_mem _ hst))

/-! ### Building instances -/

variable {VM : Type} [ManageVars VM] [LawfulVM VM]

theorem stmtsSat_cons (a : Asg) (sum : List (Lit × Int)) (op : Op) (b : Int) (sts : List Stmt) :
    stmtsSat a (.constr sum op b :: sts) ↔ rel op (isum a sum) b ∧ stmtsSat a sts := by
  simp only [stmtsSat, List.mem_cons]
  constructor
  · intro h
    exact ⟨h _ _ _ (Or.inl rfl), fun s o b' hm => h s o b' (Or.inr hm)⟩
  · rintro ⟨h1, h2⟩ s o b' (hm | hm)
    · cases hm; exact h1
    · exact h2 _ _ _ hm

theorem stmtsSat_obj (a : Asg) (se : Sense) (sum : List (Lit × Int)) (sts : List Stmt) :
    stmtsSat a (.obj se sum :: sts) ↔ stmtsSat a sts := by
  simp only [stmtsSat, List.mem_cons]
  constructor
  · intro h s o b' hm
    exact h s o b' (Or.inr hm)
  · rintro h2 s o b' (hm | hm)
    · cases hm
    · exact h2 _ _ _ hm

/-- Not an objective. -/
def isConstr : Stmt → Bool
  | .constr _ _ _ => true
  | .obj _ _ => false

theorem satLoop_ok {sts : List Stmt} {ds : List Data} (h : AllMean sts ds) (hc : ∀ st ∈ sts, isConstr st = true) :
    ∀ (s : SatInstance VM), s.Known → ∃ s', s.opbLoop (ds.map .ok) = .ok s' ∧ s'.Known ∧
      ∀ a, s'.sat a ↔ s.sat a ∧ stmtsSat a sts := by
  induction h with
  | nil => intro s hk; exact ⟨s, rfl, hk, fun a => by simp [stmtsSat]⟩
  | cmt _ ih => intro s hk; exact ih hc s hk
  | @cons st sts d ds h1 h2 ih =>
    intro s hk
    cases st with
    | obj se sum => have := hc _ List.mem_cons_self; cases this
    | constr sum op b =>
      cases d with
      | cmt t => exact absurd h1 (by simp [Means])
      | obj o => exact absurd h1 (by simp [Means])
      | constr c =>
        have hadd := C17_add_constraints s [] (.lb [] 0) c
        obtain ⟨s', e, hk', hs⟩ := ih (fun st hst => hc st (List.mem_cons_of_mem _ hst)) (s.addPb c) (hadd.2.2.2 hk).2.2
        refine ⟨s', e, hk', fun a => ?_⟩
        have h1' : ∀ a, c.sat a ↔ rel op (isum a sum) b := h1
        rw [hs a, hadd.2.2.1 a, stmtsSat_cons, h1' a, and_assoc]

/-- A file with an objective is rejected. -/
theorem satLoop_obj {sts : List Stmt} {ds : List Data} (h : AllMean sts ds) (hc : ∃ st ∈ sts, isConstr st = false) :
    ∀ (s : SatInstance VM), s.opbLoop (ds.map .ok) = .err .objInSat := by
  induction h with
  | nil => obtain ⟨st, hst, _⟩ := hc; cases hst
  | cmt _ ih => intro s; exact ih hc s
  | @cons st sts d ds h1 h2 ih =>
    intro s
    cases st with
    | obj se sum =>
      cases d with
      | cmt t => exact absurd h1 (by simp [Means])
      | constr o => exact absurd h1 (by simp [Means])
      | obj o => rfl
    | constr sum op b =>
      cases d with
      | cmt t => exact absurd h1 (by simp [Means])
      | obj o => exact absurd h1 (by simp [Means])
      | constr c =>
        refine ih ?_ (s.addPb c)
        obtain ⟨st, hst, hb⟩ := hc
        cases hst with
        | head => cases hb
        | tail _ hst => exact ⟨st, hst, hb⟩

/-! ### Objectives -/

theorem termsValue_pos (a : Asg) (ts : List (Nat × Lit)) : termsValue a ts = (wsum a (ts.map fun t => (t.2, t.1)) : Nat) := by
  induction ts with
  | nil => rfl
  | cons t ts ih =>
    obtain ⟨w, l⟩ := t
    simp only [termsValue, List.map_cons, wsum, ih]
    split <;> simp

theorem termsValue_neg (a : Asg) (ts : List (Nat × Lit)) :
    (wsum a (ts.map fun t => (t.2.neg, t.1)) : Int) = ((ts.map Prod.fst).sum : Nat) - termsValue a ts := by
  induction ts with
  | nil => rfl
  | cons t ts ih =>
    obtain ⟨w, l⟩ := t
    simp only [termsValue, List.map_cons, wsum, List.sum_cons, Lit.holds_neg]
    cases l.holds a <;> simp <;> omega

theorem toObjective_ok {se : Sense} {sum : List (Lit × Int)} {r : List (Nat × Lit) × Int} (h : Fits (.obj se sum))
    (hr : accumulate [] 0 sum = some r) :
    ∃ o, Obj.toObjective ⟨se, r.1, r.2⟩ = .ok o ∧ o.WF ∧ ObjMeans se sum o := by
  obtain ⟨r', h1, h2, h3⟩ := accumulate_some sum [] 0 h.neg
  rw [hr] at h1
  cases h1
  have hv := fun a => accumulate_value a sum [] 0 r hr
  cases se with
  | minimize =>
    have h21 := fun a => C21_from_iterators a (r.1.map fun t => (t.2, t.1)) [] []
    have hoff := Objective.increaseOffset_spec _ (h21 (fun _ => false)).1 r.2
    refine ⟨_, rfl, hoff.1, fun a => ?_⟩
    rw [hoff.2, (h21 a).2.1, ← termsValue_pos, hv a]
    simp [termsValue]
  | maximize =>
    have h' : InRange (negSum sum - absSum sum) := h.1
    have hab : absSum sum ≤ 9223372036854775807 := h.2
    have hsum : (r.1.map Prod.fst).sum = absSum sum := by rw [h3]; simp
    have hoff0 : r.2 = negSum sum := by omega
    have h21 := fun a => C21_from_iterators a (r.1.map fun t => (t.2.neg, t.1)) [] []
    have hoff := Objective.increaseOffset_spec _ (h21 (fun _ => false)).1 (r.2 - (absSum sum : Nat))
    refine ⟨(Objective.ofLits (r.1.map fun t => (t.2.neg, t.1))).increaseOffset (r.2 - (absSum sum : Nat)), ?_, hoff.1,
      fun a => ?_⟩
    · have hi : isize (r.2 - (absSum sum : Nat)) = some (r.2 - (absSum sum : Nat)) := by
        rw [isize, if_pos (by rw [hoff0]; exact h')]
      simp only [Obj.toObjective, hsum]
      rw [if_neg (by show ¬ 18446744073709551615 < absSum sum; omega), if_neg (by show ¬ 9223372036854775807 < absSum sum; omega), hi]
    · rw [hoff.2, (h21 a).2.1, termsValue_neg, hsum]
      have := hv a
      simp only [termsValue] at this
      omega

/-- Building an optimisation instance once its objective has been read. -/
theorem optLoop_rest {sts : List Stmt} {ds : List Data} (h : Reads sts ds) (hn : ∀ st ∈ sts, NoLt st)
    (ho : objectives sts = []) (o : Obj) :
    ∀ (s : SatInstance VM), s.Known → ∃ s', OptInstance.opbLoop s (some o) (ds.map .ok) = OptInstance.opbLoop s' (some o) [] ∧
      s'.Known ∧ ∀ a, s'.sat a ↔ s.sat a ∧ stmtsSat a sts := by
  induction h with
  | nil => intro s hk; exact ⟨s, rfl, hk, fun a => by simp [stmtsSat]⟩
  | cmt _ ih => intro s hk; exact ih hn ho s hk
  | @cons st sts d ds h1 h2 ih =>
    intro s hk
    have hm := parsed_means h1 (hn _ List.mem_cons_self)
    cases st with
    | obj se sum => cases ho
    | constr sum op b =>
      cases d with
      | cmt t => exact absurd hm (by simp [Means])
      | obj o => exact absurd hm (by simp [Means])
      | constr c =>
        have hadd := C17_add_constraints s [] (.lb [] 0) c
        obtain ⟨s', e, hk', hs⟩ := ih (fun st hst => hn st (List.mem_cons_of_mem _ hst)) ho (s.addPb c) (hadd.2.2.2 hk).2.2
        refine ⟨s', e, hk', fun a => ?_⟩
        have h1' : ∀ a, c.sat a ↔ rel op (isum a sum) b := hm
        rw [hs a, hadd.2.2.1 a, stmtsSat_cons, h1' a, and_assoc]

theorem optLoop_one {sts : List Stmt} {ds : List Data} (h : Reads sts ds) (hn : ∀ st ∈ sts, NoLt st)
    {se : Sense} {sum : List (Lit × Int)} (ho : objectives sts = [(se, sum)]) :
    ∀ (s : SatInstance VM), s.Known → ∃ s' r, accumulate [] 0 sum = some r ∧
      OptInstance.opbLoop s none (ds.map .ok) = OptInstance.opbLoop s' (some ⟨se, r.1, r.2⟩) [] ∧
      s'.Known ∧ ∀ a, s'.sat a ↔ s.sat a ∧ stmtsSat a sts := by
  induction h with
  | nil => cases ho
  | cmt _ ih => intro s hk; exact ih hn ho s hk
  | @cons st sts d ds h1 h2 ih =>
    intro s hk
    have hm := parsed_means h1 (hn _ List.mem_cons_self)
    cases st with
    | obj se' sum' =>
      simp only [objectives, List.cons.injEq, Prod.mk.injEq] at ho
      obtain ⟨⟨e1, e2⟩, ho⟩ := ho
      subst e1; subst e2
      simp only [parsed, Option.map_eq_some_iff] at h1
      obtain ⟨r, hr, hd⟩ := h1
      subst hd
      obtain ⟨s', e, hk', hs⟩ := optLoop_rest h2 (fun st hst => hn st (List.mem_cons_of_mem _ hst)) ho
        ⟨se', r.1, r.2⟩ s hk
      exact ⟨s', r, hr, e, hk', fun a => by rw [hs a, stmtsSat_obj]⟩
    | constr sum' op b =>
      cases d with
      | cmt t => exact absurd hm (by simp [Means])
      | obj o => exact absurd hm (by simp [Means])
      | constr c =>
        have hadd := C17_add_constraints s [] (.lb [] 0) c
        obtain ⟨s', r, hr, e, hk', hs⟩ := ih (fun st hst => hn st (List.mem_cons_of_mem _ hst)) ho (s.addPb c)
          (hadd.2.2.2 hk).2.2
        refine ⟨s', r, hr, e, hk', fun a => ?_⟩
        have h1' : ∀ a, c.sat a ↔ rel op (isum a sum') b := hm
        rw [hs a, hadd.2.2.1 a, stmtsSat_cons, h1' a, and_assoc]

theorem optLoop_none {sts : List Stmt} {ds : List Data} (h : Reads sts ds) (hn : ∀ st ∈ sts, NoLt st)
    (ho : objectives sts = []) : ∀ (s : SatInstance VM), OptInstance.opbLoop s none (ds.map .ok) = .err .noObjective := by
  induction h with
  | nil => intro s; rfl
  | cmt _ ih => intro s; exact ih hn ho s
  | @cons st sts d ds h1 h2 ih =>
    intro s
    have hm := parsed_means h1 (hn _ List.mem_cons_self)
    cases st with
    | obj se' sum' => cases ho
    | constr sum' op b =>
      cases d with
      | cmt t => exact absurd hm (by simp [Means])
      | obj o => exact absurd hm (by simp [Means])
      | constr c => exact ih (fun st hst => hn st (List.mem_cons_of_mem _ hst)) ho (s.addPb c)

theorem optLoop_many {sts : List Stmt} {ds : List Data} (h : Reads sts ds) (hn : ∀ st ∈ sts, NoLt st) :
    ∀ (obj : Option Obj), 2 ≤ (if obj.isSome = true then 1 else 0) + (objectives sts).length →
      (obj.isSome = true → 1 ≤ (objectives sts).length) →
    ∀ (s : SatInstance VM), OptInstance.opbLoop s obj (ds.map .ok) = .err .multipleObjectives := by
  induction h with
  | nil =>
    intro obj h2 h3 s
    simp only [objectives, List.length_nil] at h2
    split at h2 <;> omega
  | cmt _ ih => intro obj h2 h3 s; exact ih hn obj h2 h3 s
  | @cons st sts d ds h1 h2 ih =>
    intro obj hl h3 s
    have hm := parsed_means h1 (hn _ List.mem_cons_self)
    have hn' : ∀ st ∈ sts, NoLt st := fun st hst => hn st (List.mem_cons_of_mem _ hst)
    cases st with
    | obj se' sum' =>
      cases d with
      | cmt t => exact absurd hm (by simp [Means])
      | constr c => exact absurd hm (by simp [Means])
      | obj o =>
        cases obj with
        | some o' => rfl
        | none =>
          refine ih hn' (some o) ?_ (fun _ => ?_) s
          · simp [objectives] at hl ⊢; omega
          · simp [objectives] at hl; omega
    | constr sum' op b =>
      cases d with
      | cmt t => exact absurd hm (by simp [Means])
      | obj o => exact absurd hm (by simp [Means])
      | constr c => exact ih hn' obj hl h3 (s.addPb c)

/-- Marking more variables changes no constraint. -/
theorem sat_vm (s : SatInstance VM) (vm : VM) (a : Asg) : ({ s with vm := vm } : SatInstance VM).sat a ↔ s.sat a := Iff.rfl

theorem known_vm {s : SatInstance VM} (h : s.Known) {vm : VM} (hv : ManageVars.nUsed s.vm ≤ ManageVars.nUsed vm) :
    ({ s with vm := vm } : SatInstance VM).Known := fun v hv' => Nat.lt_of_lt_of_le (h v hv') hv

theorem multiLoop_ok {sts : List Stmt} {ds : List Data} (h : Reads sts ds) (hn : ∀ st ∈ sts, NoLt st)
    (hf : ∀ st ∈ sts, Fits st) :
    ∀ (s : SatInstance VM) (os : List Objective), s.Known → ∃ s' os', MultiOptInstance.opbLoop s os (ds.map .ok) = .ok ⟨s', os ++ os'⟩ ∧
      s'.Known ∧ ObjsMean (objectives sts) os' ∧ ∀ a, s'.sat a ↔ s.sat a ∧ stmtsSat a sts := by
  induction h with
  | nil => intro s os hk; exact ⟨s, [], by rw [List.append_nil]; rfl, hk, .nil, fun a => by simp [stmtsSat]⟩
  | cmt _ ih => intro s os hk; exact ih hn hf s os hk
  | @cons st sts d ds h1 h2 ih =>
    intro s os hk
    have hm := parsed_means h1 (hn _ List.mem_cons_self)
    have hn' : ∀ st ∈ sts, NoLt st := fun st hst => hn st (List.mem_cons_of_mem _ hst)
    have hf' : ∀ st ∈ sts, Fits st := fun st hst => hf st (List.mem_cons_of_mem _ hst)
    cases st with
    | obj se sum =>
      simp only [parsed, Option.map_eq_some_iff] at h1
      obtain ⟨r, hr, hd⟩ := h1
      subst hd
      obtain ⟨o, eo, hw, hom⟩ := toObjective_ok (hf _ List.mem_cons_self) hr
      obtain ⟨s', os', e, hk', hos, hs⟩ := ih hn' hf' { s with vm := ManageVars.markLits s.vm (r.1.map Prod.snd) }
        (os ++ [o]) (known_vm hk (nUsed_markLits s.vm _).1)
      refine ⟨s', o :: os', ?_, hk', .cons hw hom hos, fun a => ?_⟩
      · rw [List.append_assoc] at e
        rw [List.map_cons, MultiOptInstance.opbLoop, eo]
        exact e
      · rw [hs a, sat_vm, stmtsSat_obj]
    | constr sum op b =>
      cases d with
      | cmt t => exact absurd hm (by simp [Means])
      | obj o => exact absurd hm (by simp [Means])
      | constr c =>
        have hadd := C17_add_constraints s [] (.lb [] 0) c
        obtain ⟨s', os', e, hk', hos, hs⟩ := ih hn' hf' (s.addPb c) os (hadd.2.2.2 hk).2.2
        refine ⟨s', os', e, hk', hos, fun a => ?_⟩
        have h1' : ∀ a, c.sat a ↔ rel op (isum a sum) b := hm
        rw [hs a, hadd.2.2.1 a, stmtsSat_cons, h1' a, and_assoc]

end RustSat.OpbSpec
