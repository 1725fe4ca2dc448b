import Verif.Lemmas.Simp
/-
The invariant of the solver with preprocessing.
-/
namespace RustSat
namespace SimpState
variable {S : Type} [SimpCore S]

/-- The invariant: `F` are the clauses that were added. -/
structure Inv (s : SimpState S) (F : ClauseSet) : Prop where
  len : s.eliminated.length = s.frozen.length
  known : ∀ c ∈ F, ∀ l ∈ c, l.var < s.frozen.length
  free : ∀ c ∈ s.clauses, ∀ l ∈ c, s.eliminated[l.var]? = some false
  norm : ∀ c ∈ s.clauses, Simp.taut c = false
  pivots : ∀ e ∈ s.elimClauses, s.eliminated[e.1.var]? = some true
  down : ∀ m, ClauseSet.sat m F → ClauseSet.sat m s.clauses
  up : ∀ p, MakesTrue p s.clauses → (∀ v, s.eliminated[v]? = some false → p v ≠ none) →
    MakesTrue (Simp.extendModel s.elimClauses p) F

omit [SimpCore S] in
theorem Inv.same {s : SimpState S} {F : ClauseSet} (h : s.Inv F) (p : Nat → Option Bool) {v : Nat}
    (hv : s.eliminated[v]? ≠ some true) : Simp.extendModel s.elimClauses p v = p v :=
  Simp.extendModel_same _ v p fun e he hev => hv (hev ▸ h.pivots e he)

omit [SimpCore S] in
theorem grow_eliminated (s : SimpState S) (k v : Nat) :
    (s.eliminated[v]? = some true ↔ (s.grow k).eliminated[v]? = some true) ∧
    (s.eliminated[v]? = some false → (s.grow k).eliminated[v]? = some false) ∧
    (v < s.eliminated.length ∨ v < k → (s.grow k).eliminated[v]? ≠ none) := by
  show _ ∧ (_ → (s.eliminated ++ List.replicate (k - s.eliminated.length) false)[v]? = _) ∧ _
  by_cases hv : v < s.eliminated.length
  · have e : (s.eliminated ++ List.replicate (k - s.eliminated.length) false)[v]? = s.eliminated[v]? :=
      List.getElem?_append_left hv
    refine ⟨?_, ?_, fun _ => ?_⟩
    · show _ ↔ (s.eliminated ++ List.replicate (k - s.eliminated.length) false)[v]? = some true
      rw [e]
    · rw [e]; exact id
    · show (s.eliminated ++ List.replicate (k - s.eliminated.length) false)[v]? ≠ none
      rw [e, List.getElem?_eq_getElem hv]
      exact nofun
  · have e : (s.eliminated ++ List.replicate (k - s.eliminated.length) false)[v]? =
        (List.replicate (k - s.eliminated.length) false)[v - s.eliminated.length]? :=
      List.getElem?_append_right (by omega)
    have e0 : s.eliminated[v]? = none := List.getElem?_eq_none (by omega)
    refine ⟨?_, (fun h => by rw [e0] at h; cases h), fun h => ?_⟩
    · rw [e0]
      refine ⟨nofun, fun h => ?_⟩
      rw [show (s.grow k).eliminated[v]? = _ from e, List.getElem?_replicate] at h
      split at h <;> cases h
    · show (s.eliminated ++ List.replicate (k - s.eliminated.length) false)[v]? ≠ none
      rw [e, List.getElem?_replicate, if_pos (by omega)]
      exact nofun

omit [SimpCore S] in
theorem grow_frozen (s : SimpState S) (k v : Nat) :
    (s.grow k).frozen[v]? = some true ↔ s.frozen[v]? = some true := by
  show (s.frozen ++ List.replicate (k - s.frozen.length) false)[v]? = some true ↔ _
  by_cases hv : v < s.frozen.length
  · rw [List.getElem?_append_left hv]
  · rw [List.getElem?_append_right (by omega), List.getElem?_replicate, List.getElem?_eq_none (l := s.frozen) (by omega)]
    split <;> simp

omit [SimpCore S] in
theorem grow_length (s : SimpState S) (k : Nat) : (s.grow k).frozen.length = max s.frozen.length k := by
  show (s.frozen ++ List.replicate (k - s.frozen.length) false).length = _
  rw [List.length_append, List.length_replicate]
  omega

omit [SimpCore S] in
theorem Inv.grow {s : SimpState S} {F : ClauseSet} (h : s.Inv F) (k : Nat) : (s.grow k).Inv F := by
  have g := s.grow_eliminated k
  refine ⟨?_, fun c hc l hl => ?_, fun c hc l hl => (g _).2.1 (h.free c hc l hl), h.norm,
    fun e he => (g _).1.1 (h.pivots e he), h.down, fun p hp ha => h.up p hp fun v hv => ha v ((g v).2.1 hv)⟩
  · show (s.eliminated ++ List.replicate (k - s.eliminated.length) false).length =
      (s.frozen ++ List.replicate (k - s.frozen.length) false).length
    rw [List.length_append, List.length_append, List.length_replicate, List.length_replicate, h.len]
  · rw [grow_length]
    have := h.known c hc l hl
    omega

omit [SimpCore S] in
theorem Inv.setFrozen {s : SimpState S} {F : ClauseSet} (h : s.Inv F) (v : Nat) (b : Bool) : (s.setFrozen v b).Inv F :=
  ⟨h.len.trans (List.length_set (as := s.frozen)).symm,
    fun c hc l hl => by show _ < (s.frozen.set v b).length; rw [List.length_set]; exact h.known c hc l hl,
    h.free, h.norm, h.pivots, h.down, h.up⟩

theorem le_maxVar (ls : List Lit) : ∀ k, k ≤ ls.foldl (fun k l => max k l.var) k ∧
    ∀ l ∈ ls, l.var ≤ ls.foldl (fun k l => max k l.var) k := by
  induction ls with
  | nil => exact fun k => ⟨Nat.le_refl k, nofun⟩
  | cons a ls ih =>
    intro k
    rw [List.foldl_cons]
    obtain ⟨h1, h2⟩ := ih (max k a.var)
    refine ⟨by omega, fun l hl => ?_⟩
    rcases List.mem_cons.1 hl with rfl | hl
    · omega
    · exact h2 l hl

omit [SimpCore S] in
theorem ensureVars_known (s : SimpState S) (ls : List Lit) : ∀ l ∈ ls, l.var < (s.ensureVars ls).frozen.length := by
  intro l hl
  unfold ensureVars
  rw [grow_length]
  have := (le_maxVar ls 0).2 l hl
  omega

omit [SimpCore S] in
theorem lookup_false {s : SimpState S} {F : ClauseSet} (h : s.Inv F) {v : Nat} (hv : v < s.frozen.length)
    (hn : s.eliminated[v]? ≠ some true) : s.eliminated[v]? = some false := by
  rw [← h.len] at hv
  rw [List.getElem?_eq_getElem hv] at hn ⊢
  cases hb : s.eliminated[v] with
  | false => rfl
  | true => rw [hb] at hn; exact absurd rfl hn

theorem makesTrue_append {p : Nat → Option Bool} {F G : ClauseSet} :
    MakesTrue p (F ++ G) ↔ MakesTrue p F ∧ MakesTrue p G :=
  ⟨fun h => ⟨fun c hc => h c (List.mem_append_left _ hc), fun c hc => h c (List.mem_append_right _ hc)⟩,
    fun h c hc => by
      rcases List.mem_append.1 hc with hc | hc
      · exact h.1 c hc
      · exact h.2 c hc⟩

omit [SimpCore S] in
theorem Inv.addClause {s : SimpState S} {F : ClauseSet} (h : s.Inv F) {c : Clause}
    (hc : ∀ l ∈ c, s.eliminated[l.var]? ≠ some true) : (s.addClause c).Inv (F ++ [c]) := by
  have g : (s.ensureVars c).Inv F := h.grow _
  have hfalse : ∀ l ∈ c, (s.ensureVars c).eliminated[l.var]? = some false := fun l hl =>
    lookup_false g (s.ensureVars_known c l hl) fun ht => hc l hl ((s.grow_eliminated _ _).1.2 ht)
  refine ⟨g.len, fun d hd l hl => ?_, fun d hd l hl => ?_, fun d hd => ?_, g.pivots, fun m hm d hd => ?_, fun p hp ha => ?_⟩
  · rcases List.mem_append.1 hd with hd | hd
    · exact g.known d hd l hl
    · rw [List.mem_singleton.1 hd] at hl
      exact s.ensureVars_known c l hl
  · rcases List.mem_append.1 hd with hd | hd
    · exact g.free d hd l hl
    · rw [Option.mem_toList] at hd
      exact hfalse l (((Simp.normalise_some hd).2 l).1 hl)
  · rcases List.mem_append.1 hd with hd | hd
    · exact g.norm d hd
    · rw [Option.mem_toList] at hd
      exact Simp.normalise_taut hd
  · rcases List.mem_append.1 hd with hd | hd
    · exact g.down m (fun e he => hm e (List.mem_append_left _ he)) d hd
    · rw [Option.mem_toList] at hd
      obtain ⟨l, hl, hlm⟩ := hm c (List.mem_append_right _ List.mem_cons_self)
      exact ⟨l, ((Simp.normalise_some hd).2 l).2 hl, hlm⟩
  · obtain ⟨hp1, hp2⟩ := makesTrue_append.1 hp
    refine makesTrue_append.2 ⟨g.up p hp1 ha, fun d hd => ?_⟩
    rw [List.mem_singleton.1 hd]
    have hsame : ∀ l ∈ c, Simp.extendModel s.elimClauses p l.var = p l.var := fun l hl =>
      h.same p (hc l hl)
    cases hn : Simp.normalise c with
    | none =>
      obtain ⟨l, hl, hln⟩ := Simp.normalise_none hn
      have hne := ha l.var (hfalse l hl)
      cases hpv : p l.var with
      | none => exact absurd hpv hne
      | some b =>
        by_cases hb : b = l.isNeg
        · refine ⟨l.neg, hln, ?_⟩
          show Simp.extendModel s.elimClauses p l.neg.var = _
          rw [hsame _ hln, Lit.var_neg, Lit.isNeg_neg, Bool.not_not, hpv, hb]
        · refine ⟨l, hl, ?_⟩
          show Simp.extendModel s.elimClauses p l.var = _
          rw [hsame _ hl, hpv]
          cases b <;> cases hl' : l.isNeg <;> simp_all
    | some e =>
      obtain ⟨l, hl, hlp⟩ := hp2 e (by rw [hn]; simp)
      have hlc := ((Simp.normalise_some hn).2 l).1 hl
      refine ⟨l, hlc, ?_⟩
      show Simp.extendModel s.elimClauses p l.var = _
      rw [hsame l hlc, hlp]

theorem set_lookup {L : List Bool} {v w : Nat} {b : Bool} (hv : v < L.length) :
    (L.set v b)[w]? = if w = v then some b else L[w]? := by
  rw [List.getElem?_set]
  by_cases h : v = w
  · subst h
    rw [if_pos rfl, if_pos hv, if_pos rfl]
  · rw [if_neg h, if_neg fun h' => h h'.symm]

theorem lookup_lt {L : List Bool} {v : Nat} {b : Bool} (h : L[v]? = some b) : v < L.length := by
  rcases Nat.lt_or_ge v L.length with h' | h'
  · exact h'
  · rw [List.getElem?_eq_none h'] at h
    cases h

omit [SimpCore S] in
theorem Inv.eliminateVar {s : SimpState S} {F : ClauseSet} (h : s.Inv F) {v : Nat}
    (hv : s.eliminated[v]? = some false) : (s.eliminateVar v).Inv F := by
  have hlt := lookup_lt hv
  have hset : ∀ w, (s.eliminated.set v true)[w]? = if w = v then some true else s.eliminated[w]? :=
    fun w => set_lookup hlt
  have hfree : ∀ l : Lit, l.var ≠ v → s.eliminated[l.var]? = some false → (s.eliminated.set v true)[l.var]? = some false := by
    intro l hl h'
    rw [hset, if_neg hl, h']
  refine ⟨?_, h.known, fun c hc l hl => ?_, fun c hc => ?_, fun e he => ?_, fun m hm => ?_, fun p hp ha => ?_⟩
  · show (s.eliminated.set v true).length = s.frozen.length
    rw [List.length_set, h.len]
  · show (s.eliminated.set v true)[l.var]? = some false
    rcases List.mem_append.1 hc with hc | hc
    · obtain ⟨h1, h2, h3⟩ := Simp.mem_without.1 hc
      refine hfree l (fun hlv => ?_) (h.free c h1 l hl)
      rcases Simp.lit_of_var hlv with rfl | rfl <;> contradiction
    · obtain ⟨a, ha, b, hb, hr⟩ := Simp.mem_resolvents.1 hc
      rcases List.mem_append.1 (((Simp.normalise_some hr).2 l).1 hl) with hl | hl
      · obtain ⟨h1, h2⟩ := Simp.mem_others.1 hl
        exact hfree l h2 (h.free a (Simp.mem_posOf.1 ha).1 l h1)
      · obtain ⟨h1, h2⟩ := Simp.mem_others.1 hl
        exact hfree l h2 (h.free b (Simp.mem_negOf.1 hb).1 l h1)
  · rcases List.mem_append.1 hc with hc | hc
    · exact h.norm c (Simp.mem_without.1 hc).1
    · obtain ⟨a, ha, b, hb, hr⟩ := Simp.mem_resolvents.1 hc
      exact Simp.normalise_taut hr
  · show (s.eliminated.set v true)[e.1.var]? = some true
    rw [hset]
    rcases List.mem_append.1 he with he | he
    · rw [if_pos (Simp.stored_var e he)]
    · split
      · rfl
      · exact h.pivots e he
  · exact Simp.eliminate_sound h.norm (h.down m hm)
  · have ha0 : ∀ c ∈ s.clauses, ∀ l ∈ c, l.var ≠ v → p l.var ≠ none := fun c hc l hl hlv =>
      ha l.var (hfree l hlv (h.free c hc l hl))
    obtain ⟨e1, e2, e3⟩ := Simp.extend_stored hp ha0
    show MakesTrue (Simp.extendModel (_ ++ s.elimClauses) p) F
    rw [Simp.extendModel_append]
    refine h.up _ e3 fun w hw => ?_
    by_cases hwv : w = v
    · subst hwv; exact e2
    · rw [e1 w hwv]
      refine ha w ?_
      show (s.eliminated.set v true)[w]? = some false
      rw [hset, if_neg hwv, hw]

/-- What elimination keeps. -/
structure Kept (s t : SimpState S) : Prop where
  frozen : t.frozen = s.frozen
  core : t.core = s.core
  model : t.model = s.model
  modelSize : t.modelSize = s.modelSize
  conflict : t.conflict = s.conflict
  elim : ∀ v : Nat, s.eliminated[v]? = some true → t.eliminated[v]? = some true
  notElim : ∀ v : Nat, s.frozen[v]? = some true → t.eliminated[v]? = s.eliminated[v]?

omit [SimpCore S] in
theorem eliminateStep_ok {s : SimpState S} {F : ClauseSet} (h : s.Inv F) (v : Nat) :
    (s.eliminateStep v).Inv F ∧ Kept s (s.eliminateStep v) := by
  unfold eliminateStep
  by_cases hc : s.eliminated[v]? = some false ∧ s.frozen[v]? = some false
  · rw [if_pos hc]
    have hset : ∀ w, (s.eliminated.set v true)[w]? = if w = v then some true else s.eliminated[w]? :=
      fun w => set_lookup (lookup_lt hc.1)
    refine ⟨h.eliminateVar hc.1, rfl, rfl, rfl, rfl, rfl, fun w hw => ?_, fun w hw => ?_⟩
    · show (s.eliminated.set v true)[w]? = _
      rw [hset]
      split
      · rfl
      · exact hw
    · show (s.eliminated.set v true)[w]? = _
      rw [hset, if_neg]
      rintro rfl
      rw [hc.2] at hw
      cases hw
  · rw [if_neg hc]
    exact ⟨h, rfl, rfl, rfl, rfl, rfl, fun _ => id, fun _ _ => rfl⟩

omit [SimpCore S] in
theorem Kept.trans {s t u : SimpState S} (h : Kept s t) (h' : Kept t u) : Kept s u :=
  ⟨h'.frozen.trans h.frozen, h'.core.trans h.core, h'.model.trans h.model, h'.modelSize.trans h.modelSize,
    h'.conflict.trans h.conflict, fun v hv => h'.elim v (h.elim v hv),
    fun v hv => (h'.notElim v (by rw [h.frozen]; exact hv)).trans (h.notElim v hv)⟩

theorem eliminate_ok {s : SimpState S} {F : ClauseSet} (h : s.Inv F) : s.eliminate.Inv F ∧ Kept s s.eliminate := by
  unfold eliminate
  generalize SimpCore.order s.core s.clauses = vs
  induction vs generalizing s with
  | nil => exact ⟨h, rfl, rfl, rfl, rfl, rfl, fun _ => id, fun _ _ => rfl⟩
  | cons v vs ih =>
    rw [List.foldl_cons]
    obtain ⟨h1, h2⟩ := eliminateStep_ok h v
    obtain ⟨h3, h4⟩ := ih h1
    exact ⟨h3, h2.trans h4⟩

/-- Only the frozen variables differ. -/
def OnlyFrozen (s t : SimpState S) : Prop := t = { s with frozen := t.frozen }

omit [SimpCore S] in
theorem OnlyFrozen.inv {s t : SimpState S} {F : ClauseSet} (h : s.Inv F) (he : OnlyFrozen s t)
    (hl : t.frozen.length = s.frozen.length) : t.Inv F := by
  rw [he]
  exact ⟨h.len.trans hl.symm, fun c hc l hl' => by show _ < t.frozen.length; rw [hl]; exact h.known c hc l hl',
    h.free, h.norm, h.pivots, h.down, h.up⟩

omit [SimpCore S] in
theorem freeze_ok (s : SimpState S) (A : List Lit) (hA : ∀ l ∈ A, l.var < s.frozen.length) :
    let f := A.foldl freezeStep (s, [])
    OnlyFrozen s f.1 ∧ f.1.frozen.length = s.frozen.length ∧ (∀ v : Nat, v ∈ f.2 → s.frozen[v]? = some false) ∧
    (∀ v : Nat, f.1.frozen[v]? = if v ∈ f.2 then some true else s.frozen[v]?) ∧ ∀ l ∈ A, f.1.frozen[l.var]? = some true := by
  have key : ∀ (A : List Lit) (r : SimpState S × List Nat), (∀ l ∈ A, l.var < s.frozen.length) →
      OnlyFrozen s r.1 → r.1.frozen.length = s.frozen.length → (∀ v : Nat, v ∈ r.2 → s.frozen[v]? = some false) →
      (∀ v : Nat, r.1.frozen[v]? = if v ∈ r.2 then some true else s.frozen[v]?) →
      let f := A.foldl freezeStep r
      OnlyFrozen s f.1 ∧ f.1.frozen.length = s.frozen.length ∧ (∀ v : Nat, v ∈ f.2 → s.frozen[v]? = some false) ∧
      (∀ v : Nat, f.1.frozen[v]? = if v ∈ f.2 then some true else s.frozen[v]?) ∧
      (∀ v : Nat, r.1.frozen[v]? = some true → f.1.frozen[v]? = some true) ∧ ∀ l ∈ A, f.1.frozen[l.var]? = some true := by
    intro A
    induction A with
    | nil => intro r _ h1 h2 h3 h4; exact ⟨h1, h2, h3, h4, fun _ => id, nofun⟩
    | cons a A ih =>
      intro r hA h1 h2 h3 h4
      show let f := A.foldl freezeStep (freezeStep r a); _
      have ha : a.var < r.1.frozen.length := by rw [h2]; exact hA a List.mem_cons_self
      have hstep : OnlyFrozen s (freezeStep r a).1 ∧ (freezeStep r a).1.frozen.length = s.frozen.length ∧
          (∀ v : Nat, v ∈ (freezeStep r a).2 → s.frozen[v]? = some false) ∧
          (∀ v : Nat, (freezeStep r a).1.frozen[v]? = if v ∈ (freezeStep r a).2 then some true else s.frozen[v]?) ∧
          (∀ v : Nat, r.1.frozen[v]? = some true → (freezeStep r a).1.frozen[v]? = some true) ∧
          (freezeStep r a).1.frozen[a.var]? = some true := by
        unfold freezeStep
        by_cases hf : r.1.frozen[a.var]? = some true
        · rw [if_pos hf]
          exact ⟨h1, h2, h3, h4, fun _ => id, hf⟩
        · rw [if_neg hf]
          have hset : ∀ w, (r.1.frozen.set a.var true)[w]? = if w = a.var then some true else r.1.frozen[w]? :=
            fun w => set_lookup ha
          have hav : a.var ∉ r.2 := fun hin => hf (by rw [h4, if_pos hin])
          have hafalse : s.frozen[a.var]? = some false := by
            rw [h4, if_neg hav] at hf
            have hlt := hA a List.mem_cons_self
            rw [List.getElem?_eq_getElem hlt] at hf ⊢
            cases hb : s.frozen[a.var] with
            | false => rfl
            | true => rw [hb] at hf; exact absurd rfl hf
          refine ⟨?_, ?_, fun v hv => ?_, fun v => ?_, fun v hv => ?_, ?_⟩
          · show ({ r.1 with frozen := r.1.frozen.set a.var true } : SimpState S) = _
            rw [h1]
            rfl
          · show (r.1.frozen.set a.var true).length = _
            rw [List.length_set, h2]
          · rcases List.mem_append.1 hv with hv | hv
            · exact h3 v hv
            · rw [List.mem_singleton.1 hv]; exact hafalse
          · show (r.1.frozen.set a.var true)[v]? = _
            rw [hset, h4]
            by_cases hva : v = a.var
            · rw [if_pos hva, if_pos (by rw [hva]; simp)]
            · rw [if_neg hva]
              by_cases hvr : v ∈ r.2
              · rw [if_pos hvr, if_pos (List.mem_append_left _ hvr)]
              · rw [if_neg hvr, if_neg]
                intro hin
                rcases List.mem_append.1 hin with hin | hin
                · exact hvr hin
                · exact hva (List.mem_singleton.1 hin)
          · show (r.1.frozen.set a.var true)[v]? = _
            rw [hset]
            split
            · rfl
            · exact hv
          · show (r.1.frozen.set a.var true)[a.var]? = _
            rw [hset, if_pos rfl]
      obtain ⟨k1, k2, k3, k4, k5, k6⟩ := hstep
      obtain ⟨i1, i2, i3, i4, i5, i6⟩ := ih (freezeStep r a) (fun l hl => hA l (List.mem_cons_of_mem _ hl)) k1 k2 k3 k4
      refine ⟨i1, i2, i3, i4, fun v hv => i5 v (k5 v hv), fun l hl => ?_⟩
      rcases List.mem_cons.1 hl with rfl | hl
      · exact i5 _ k6
      · exact i6 l hl
  obtain ⟨k1, k2, k3, k4, _, k6⟩ := key A (s, []) hA rfl rfl nofun fun v => (if_neg nofun).symm
  exact ⟨k1, k2, k3, k4, k6⟩

omit [SimpCore S] in
theorem unfreeze_ok (vs : List Nat) : ∀ s : SimpState S, (∀ v ∈ vs, v < s.frozen.length) →
    OnlyFrozen s (s.unfreeze vs) ∧ (s.unfreeze vs).frozen.length = s.frozen.length ∧
    ∀ v : Nat, (s.unfreeze vs).frozen[v]? = if v ∈ vs then some false else s.frozen[v]? := by
  induction vs with
  | nil => exact fun s _ => ⟨rfl, rfl, fun v => (if_neg nofun).symm⟩
  | cons v vs ih =>
    intro s h
    have hset : ∀ w, (s.frozen.set v false)[w]? = if w = v then some false else s.frozen[w]? :=
      fun w => set_lookup (h v List.mem_cons_self)
    obtain ⟨h1, h2, h3⟩ := ih (s.setFrozen v false) fun w hw => by
      show w < (s.frozen.set v false).length
      rw [List.length_set]
      exact h w (List.mem_cons_of_mem _ hw)
    refine ⟨?_, ?_, fun w => ?_⟩
    · show (s.setFrozen v false).unfreeze vs = _
      rw [h1]
      rfl
    · show ((s.setFrozen v false).unfreeze vs).frozen.length = _
      rw [h2]
      exact List.length_set
    · show ((s.setFrozen v false).unfreeze vs).frozen[w]? = _
      rw [h3]
      by_cases hw : w ∈ vs
      · rw [if_pos hw, if_pos (List.mem_cons_of_mem _ hw)]
      · rw [if_neg hw]
        show (s.frozen.set v false)[w]? = _
        rw [hset]
        by_cases hwv : w = v
        · rw [if_pos hwv, if_pos (by rw [hwv]; exact List.mem_cons_self)]
        · rw [if_neg hwv, if_neg]
          intro hin
          rcases List.mem_cons.1 hin with h' | h'
          · exact hwv h'
          · exact hw h'

end SimpState
end RustSat
