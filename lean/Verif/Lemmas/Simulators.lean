import Verif.Lemmas.Bound
/-
The simulators satisfy the laws of encodings if the encodings they use do; histories preserve the invariant.
-/
namespace RustSat
open Card

theorem mem_handedOut {VM : Type} [ManageVars VM] {a b : VM} {v : Nat} :
    v ∈ CardWorld.handedOut a b ↔ ManageVars.nUsed a ≤ v ∧ v < ManageVars.nUsed b := by
  unfold CardWorld.handedOut
  rw [List.mem_range'_1]
  omega

/-- Clauses over variables on which two assignments agree. -/
theorem ClauseSet.sat_congr {a b : Asg} {cls : ClauseSet} (h : ∀ c ∈ cls, ∀ l ∈ c, a l.var = b l.var)
    (hs : ClauseSet.sat a cls) : ClauseSet.sat b cls := by
  intro c hc
  obtain ⟨l, hl, h1⟩ := hs c hc
  exact ⟨l, hl, by rw [← Lit.holds_congr (h c hc l hl)]; exact h1⟩

/-! ### Inverted -/

namespace Item
variable {ι : Type} [Item ι] [LawfulItem ι]

theorem total_neg (l : List ι) : total (l.map neg) = total l := by
  unfold total
  rw [List.map_map]
  congr 1
  exact List.map_congr_left fun x _ => LawfulItem.weight_neg x

theorem value_neg (a : Asg) (l : List ι) : value a (l.map neg) + value a l = total l := by
  induction l with
  | nil => rfl
  | cons x l ih =>
    rw [List.map_cons, value_cons, value_cons, total_cons, LawfulItem.lit_neg, LawfulItem.weight_neg, Lit.holds_neg]
    cases (lit x).holds a <;> simp <;> omega

theorem vars_neg (l : List ι) (v : Nat) : vars (l.map neg) v ↔ vars l v := by
  unfold vars
  constructor
  · rintro ⟨x, hx, rfl⟩
    obtain ⟨y, hy, rfl⟩ := List.mem_map.1 hx
    exact ⟨y, hy, by rw [LawfulItem.lit_neg, Lit.var_neg]⟩
  · rintro ⟨x, hx, rfl⟩
    exact ⟨neg x, List.mem_map.2 ⟨x, hx, rfl⟩, by rw [LawfulItem.lit_neg, Lit.var_neg]⟩

end Item

theorem Enforces.congr {cls : ClauseSet} {own : List Nat} {V V' : Nat → Prop} {A : List Lit} {P Q : Asg → Prop}
    (h : Enforces cls own V A P) (hV : ∀ v, V v → V' v) (hP : ∀ a, P a ↔ Q a) : Enforces cls own V' A Q :=
  ⟨fun m hm hc => (hP m).1 (h.sound m hm hc), fun a ha => h.complete a ((hP a).2 ha),
    fun l hl => (h.vars l hl).imp (hV _) fun h => h⟩

theorem EncodeOk.of_map {E F ι κ VM : Type} [ManageVars VM] {I : E → Nat → ClauseSet → List ι → List Nat → Prop}
    {J : F → Nat → ClauseSet → List κ → List Nat → Prop} {f : VM → ClauseSet → Option (E × VM × ClauseSet)}
    {g : VM → ClauseSet → Option (F × VM × ClauseSet)} {vm : VM} {cls : ClauseSet} {ins : List ι} {ins' : List κ}
    {own : List Nat} {P : E → Prop} {Q : F → Prop} (h : EncodeOk I f vm cls ins own P) (W : E → F)
    (hg : ∀ col, g vm col = (f vm col).map fun x => (W x.1, x.2.1, x.2.2))
    (hI : ∀ e n c o, I e n c ins o → P e → J (W e) n c ins' o ∧ Q (W e)) : EncodeOk J g vm cls ins' own Q := by
  intro col
  obtain ⟨e', vm', new, h1, h2, h3, h4⟩ := h col
  obtain ⟨h5, h6⟩ := hI e' _ _ _ h3 h4
  exact ⟨W e', vm', new, by rw [hg, h1]; rfl, h2, h5, h6⟩

namespace Inverted
variable {E ι VM : Type} [ManageVars VM] [Item ι] [LawfulItem ι] [Encoder E ι] [EncodeInc E VM]

omit [ManageVars VM] in
theorem wrap_eq (e : Inverted E) (r : Option (E × VM × ClauseSet)) :
    e.wrap r = r.map fun x => (⟨x.1, e.sum⟩, x.2.1, x.2.2) := rfl

instance [LawfulEnc E ι VM] : LawfulEnc (Inverted E) ι VM where
  Inv e n cls ins own := LawfulEnc.Inv VM e.enc n cls (ins.map Item.neg) own ∧ e.sum = Item.total ins
  same e e' := LawfulEnc.same VM e.enc e'.enc ∧ e.sum = e'.sum
  new ins n hd h := by
    have hd' := LawfulItem.distinct_neg ins hd
    refine ⟨?_, ?_⟩
    · show LawfulEnc.Inv VM (Encoder.new (Item.collect ((Item.collect ins).map Item.neg))) _ _ _ _
      rw [LawfulItem.collect ins hd, LawfulItem.collect _ hd']
      refine LawfulEnc.new _ n hd' fun x hx => ?_
      obtain ⟨y, hy, rfl⟩ := List.mem_map.1 hx
      rw [LawfulItem.weight_neg, LawfulItem.lit_neg, Lit.var_neg]
      exact h y hy
    · show Item.total (Item.collect ins) = _
      rw [LawfulItem.collect ins hd]
  extend e n cls ins own lits h hd hl := by
    have hd' := LawfulItem.distinct_neg lits hd
    refine ⟨?_, ?_⟩
    · show LawfulEnc.Inv VM (Encoder.extend e.enc (Item.collect (lits.map Item.neg))) _ _ _ _
      rw [LawfulItem.collect _ hd', List.map_append]
      refine LawfulEnc.extend _ n cls _ own _ h.1 hd' fun x hx => ?_
      obtain ⟨y, hy, rfl⟩ := List.mem_map.1 hx
      rw [LawfulItem.weight_neg, LawfulItem.lit_neg, Lit.var_neg]
      exact hl y hy
    · show e.sum + Item.total (Item.collect (lits.map Item.neg)) = _
      rw [LawfulItem.collect _ hd', Item.total_neg, Item.total_append, h.2]
  reserve e vm cls ins own h := by
    obtain ⟨e', vm', h1, h2, h3⟩ := LawfulEnc.reserve e.enc vm cls _ own h.1
    refine ⟨⟨e', e.sum⟩, vm', ?_, h2, h3, h.2⟩
    show (EncodeInc.reserve e.enc vm).map _ = _
    rw [h1]
    rfl
  same_inv e e' n cls ins own h hs := ⟨LawfulEnc.same_inv _ _ n cls _ own h.1 hs.1, by rw [← hs.2]; exact h.2⟩
  more e n n' cls ins own h hn := ⟨LawfulEnc.more _ n n' cls _ own h.1 hn, h.2⟩
  weightSum e n cls ins own h := h.2
  ownLt e n cls ins own h := LawfulEnc.ownLt _ n cls _ own h.1
  disj e n cls ins own h v hv := by rw [← Item.vars_neg]; exact LawfulEnc.disj _ n cls _ own h.1 v hv
  vars e n cls ins own h c hc l hl := by rw [← Item.vars_neg]; exact LawfulEnc.vars _ n cls _ own h.1 c hc l hl
  free e n cls ins own h := LawfulEnc.free _ n cls _ own h.1

theorem convert_spec {e : Inverted E} {range : Nat × Nat} {r' : URange} (h : e.convert range = some r') {b : Nat}
    (h1 : range.1 ≤ b) (h2 : b < range.2) (h3 : b ≤ e.sum) : r'.contains (e.sum - b) := by
  unfold convert at h
  by_cases hc : range.2 = 0 ∨ e.sum < range.2 - 1
  · rw [if_pos hc] at h; cases h
  · rw [if_neg hc] at h
    cases h
    unfold URange.contains
    simp only
    have : e.sum ≥ range.1 := by omega
    rw [if_pos this]
    omega

theorem prepareUb_ge {n : Nat} {r : URange} {b : Nat} (h : r.contains b) (hb : b < n) :
    (prepareUbRange n r).1 ≤ b ∧ b < (prepareUbRange n r).2 := by
  unfold prepareUbRange
  unfold URange.contains at h
  revert h
  cases r.lo <;> cases r.hi <;> simp only [true_and, and_true] <;> omega

theorem prepareLb_ge {n : Nat} {r : URange} {b : Nat} (h : r.contains b) (h0 : 0 < b) (hb : b ≤ n) :
    (prepareLbRange n r).1 ≤ b ∧ b < (prepareLbRange n r).2 := by
  unfold prepareLbRange
  unfold URange.contains at h
  revert h
  cases r.lo <;> cases r.hi <;> simp only [true_and, and_true] <;> omega

theorem prepareBoth_ge {n : Nat} {r : URange} {b : Nat} (h : r.contains b) (h0 : 0 < b ∨ r.lo ≠ .unbounded) (hb : b ≤ n) :
    (prepareBothRange n r).1 ≤ b ∧ b < (prepareBothRange n r).2 := by
  unfold prepareBothRange
  unfold URange.contains at h
  revert h h0
  cases r.lo <;> cases r.hi <;> simp only [true_and, and_true, ne_eq, reduceCtorEq, not_true_eq_false, or_false] <;> omega

/-- When the conversion of a range succeeds. -/
theorem convert_isSome (e : Inverted E) (range : Nat × Nat) :
    (∃ r', e.convert range = some r') ↔ 0 < range.2 ∧ range.2 ≤ e.sum + 1 := by
  unfold convert
  by_cases hc : range.2 = 0 ∨ e.sum < range.2 - 1
  · rw [if_pos hc]
    constructor
    · rintro ⟨r', h⟩; cases h
    · intro h; omega
  · rw [if_neg hc]
    constructor
    · intro _; omega
    · intro _; exact ⟨_, rfl⟩

theorem lb_avail [LawfulEnc E ι VM] [BoundUpper E VM] [EnforceUb E] [LawfulUb E ι VM] {e : Inverted E} {r r' : URange}
    (h1 : e.convert (prepareLbRange e.sum r) = some r') {e' : E} {n : Nat} {c : ClauseSet} {ins : List ι} {o : List Nat}
    (hs : e.sum = Item.total ins) (hi : LawfulEnc.Inv VM e' n c (ins.map Item.neg) o)
    (ha : ∀ b, r'.contains b → ∃ A, EnforceUb.enforceUb e' b = .ok A) (b : Nat) (hb : r.contains b)
    (hle : b ≤ Item.total ins) : ∃ A, EnforceLb.enforceLb (⟨e', e.sum⟩ : Inverted E) b = .ok A := by
  show ∃ A, (if e.sum ≥ b then EnforceUb.enforceUb e' (e.sum - b) else .err .unsat) = .ok A
  rw [← hs] at hle
  rw [if_pos hle]
  by_cases h0 : 0 < b
  · obtain ⟨p1, p2⟩ := prepareLb_ge hb h0 hle
    exact ha _ (convert_spec h1 p1 p2 hle)
  · refine LawfulUb.ub_max e' n c _ o _ hi ?_
    rw [Item.total_neg]
    omega

instance [LawfulEnc E ι VM] [BoundUpper E VM] [EnforceUb E] [LawfulUb E ι VM] : LawfulLb (Inverted E) ι VM where
  lbOk e r := ∃ r', e.convert (prepareLbRange e.sum r) = some r' ∧ LawfulUb.ubOk VM e.enc r'
  encodeLb e r vm cls ins own h hr := by
    obtain ⟨r', h1, h2⟩ := hr
    refine (LawfulUb.encodeUb e.enc r' vm cls _ own h.1 h2).of_map (fun x => ⟨x, e.sum⟩) (fun col => ?_)
      fun e' n c o hi ha => ⟨⟨hi, h.2⟩, lb_avail h1 h.2 hi ha⟩
    show (match e.convert (prepareLbRange e.sum r) with | none => none | some r => _) = _
    rw [h1]
    exact wrap_eq _ _
  encodeLbChange e r vm cls ins own h hr := by
    obtain ⟨r', h1, h2⟩ := hr
    refine (LawfulUb.encodeUbChange e.enc r' vm cls _ own h.1 h2).of_map (fun x => ⟨x, e.sum⟩) (fun col => ?_)
      fun e' n c o hi ha => ⟨⟨hi, h.2⟩, lb_avail h1 h.2 hi ha⟩
    show (match e.convert (prepareLbRange e.sum r) with | none => none | some r => _) = _
    rw [h1]
    exact wrap_eq _ _
  lb_total e n cls ins own b h := by
    show _ ∧ (if e.sum ≥ b then EnforceUb.enforceUb e.enc (e.sum - b) else .err .unsat) = _ ∨
      _ ∧ ((∃ A, (if e.sum ≥ b then EnforceUb.enforceUb e.enc (e.sum - b) else .err .unsat) = _) ∨
        (if e.sum ≥ b then EnforceUb.enforceUb e.enc (e.sum - b) else .err .unsat) = _)
    by_cases hb : e.sum ≥ b
    · rw [if_pos hb]
      rw [h.2] at hb
      exact Or.inr ⟨hb, LawfulUb.ub_total _ n cls _ own _ h.1⟩
    · rw [if_neg hb]
      rw [h.2] at hb
      exact Or.inl ⟨by omega, rfl⟩
  enforceLb e n cls ins own b A h hA := by
    change (if e.sum ≥ b then EnforceUb.enforceUb e.enc (e.sum - b) else .err .unsat) = _ at hA
    by_cases hb : e.sum ≥ b
    · rw [if_pos hb] at hA
      refine (LawfulUb.enforceUb _ n cls _ own _ A h.1 hA).congr (fun v hv => (Item.vars_neg _ _).1 hv) fun a => ?_
      have := Item.value_neg a ins
      rw [← h.2] at this
      omega
    · rw [if_neg hb] at hA; cases hA

theorem ub_avail [LawfulEnc E ι VM] [BoundLower E VM] [EnforceLb E] [LawfulLb E ι VM] {e : Inverted E} {r r' : URange}
    (h1 : e.convert (prepareUbRange e.sum r) = some r') {e' : E} {ins : List ι}
    (hs : e.sum = Item.total ins)
    (ha : ∀ b, r'.contains b → b ≤ Item.total (ins.map Item.neg) → ∃ A, EnforceLb.enforceLb e' b = .ok A) (b : Nat)
    (hb : r.contains b) : ∃ A, EnforceUb.enforceUb (⟨e', e.sum⟩ : Inverted E) b = .ok A := by
  show ∃ A, (if e.sum > b then EnforceLb.enforceLb e' (e.sum - b) else .ok []) = .ok A
  by_cases hle : e.sum > b
  · rw [if_pos hle]
    obtain ⟨p1, p2⟩ := prepareUb_ge hb hle
    refine ha _ (convert_spec h1 p1 p2 (Nat.le_of_lt hle)) ?_
    rw [Item.total_neg]
    omega
  · rw [if_neg hle]
    exact ⟨_, rfl⟩

instance [LawfulEnc E ι VM] [BoundLower E VM] [EnforceLb E] [LawfulLb E ι VM] : LawfulUb (Inverted E) ι VM where
  ubOk e r := ∃ r', e.convert (prepareUbRange e.sum r) = some r' ∧ LawfulLb.lbOk VM e.enc r'
  encodeUb e r vm cls ins own h hr := by
    obtain ⟨r', h1, h2⟩ := hr
    refine (LawfulLb.encodeLb e.enc r' vm cls _ own h.1 h2).of_map (fun x => ⟨x, e.sum⟩) (fun col => ?_)
      fun e' n c o hi ha => ⟨⟨hi, h.2⟩, ub_avail (VM := VM) h1 h.2 ha⟩
    show (match e.convert (prepareUbRange e.sum r) with | none => none | some r => _) = _
    rw [h1]
    exact wrap_eq _ _
  encodeUbChange e r vm cls ins own h hr := by
    obtain ⟨r', h1, h2⟩ := hr
    refine (LawfulLb.encodeLbChange e.enc r' vm cls _ own h.1 h2).of_map (fun x => ⟨x, e.sum⟩) (fun col => ?_)
      fun e' n c o hi ha => ⟨⟨hi, h.2⟩, ub_avail (VM := VM) h1 h.2 ha⟩
    show (match e.convert (prepareUbRange e.sum r) with | none => none | some r => _) = _
    rw [h1]
    exact wrap_eq _ _
  ub_total e n cls ins own b h := by
    show (∃ A, (if e.sum > b then EnforceLb.enforceLb e.enc (e.sum - b) else .ok []) = _) ∨
        (if e.sum > b then EnforceLb.enforceLb e.enc (e.sum - b) else .ok []) = _
    by_cases hb : e.sum > b
    · rw [if_pos hb]
      rcases LawfulLb.lb_total _ n cls _ own (e.sum - b) h.1 with ⟨h1, -⟩ | ⟨-, h1⟩
      · rw [Item.total_neg] at h1
        have := h.2
        omega
      · exact h1
    · rw [if_neg hb]
      exact Or.inl ⟨_, rfl⟩
  ub_max e n cls ins own b h hb := by
    show ∃ A, (if e.sum > b then EnforceLb.enforceLb e.enc (e.sum - b) else .ok []) = .ok A
    rw [← h.2] at hb
    rw [if_neg (Nat.not_lt.2 hb)]
    exact ⟨_, rfl⟩
  enforceUb e n cls ins own b A h hA := by
    change (if e.sum > b then EnforceLb.enforceLb e.enc (e.sum - b) else .ok []) = _ at hA
    by_cases hb : e.sum > b
    · rw [if_pos hb] at hA
      refine (LawfulLb.enforceLb _ n cls _ own _ A h.1 hA).congr (fun v hv => (Item.vars_neg _ _).1 hv) fun a => ?_
      have := Item.value_neg a ins
      rw [← h.2] at this
      omega
    · rw [if_neg hb] at hA
      cases hA
      refine ⟨fun m _ _ => ?_, fun a _ => ?_, fun l hl => (by cases hl)⟩
      · have := Item.value_le m ins
        have := h.2
        omega
      · obtain ⟨m, h1, h2⟩ := LawfulEnc.free _ n cls _ own h.1 a
        exact ⟨m, h1, h2, by simp [cubeSat]⟩

theorem eq_avail [LawfulEnc E ι VM] [BoundBoth E VM] [EnforceEq E] [LawfulBoth E ι VM] {e : Inverted E} {r r' : URange}
    (h1 : e.convert (prepareBothRange e.sum r) = some r') (hlo : r.lo ≠ .unbounded) {e' : E} {ins : List ι}
    (hs : e.sum = Item.total ins)
    (ha : ∀ b, r'.contains b → b ≤ Item.total (ins.map Item.neg) → ∃ A, EnforceEq.enforceEq e' b = .ok A) (b : Nat)
    (hb : r.contains b) (hle : b ≤ Item.total ins) :
    ∃ A, EnforceEq.enforceEq (⟨e', e.sum⟩ : Inverted E) b = .ok A := by
  show ∃ A, (if e.sum ≥ b then EnforceEq.enforceEq e' (e.sum - b) else .err .unsat) = .ok A
  rw [← hs] at hle
  rw [if_pos hle]
  obtain ⟨p1, p2⟩ := prepareBoth_ge hb (Or.inr hlo) hle
  refine ha _ (convert_spec h1 p1 p2 hle) ?_
  rw [Item.total_neg]
  omega

instance [LawfulEnc E ι VM] [BoundBoth E VM] [EnforceEq E] [LawfulBoth E ι VM] : LawfulBoth (Inverted E) ι VM where
  bothOk e r := r.lo ≠ .unbounded ∧ ∃ r', e.convert (prepareBothRange e.sum r) = some r' ∧ LawfulBoth.bothOk VM e.enc r'
  encodeBoth e r vm cls ins own h hr := by
    obtain ⟨hlo, r', h1, h2⟩ := hr
    refine (LawfulBoth.encodeBoth e.enc r' vm cls _ own h.1 h2).of_map (fun x => ⟨x, e.sum⟩) (fun col => ?_)
      fun e' n c o hi ha => ⟨⟨hi, h.2⟩, eq_avail (VM := VM) h1 hlo h.2 ha⟩
    show (match e.convert (prepareBothRange e.sum r) with | none => none | some r => _) = _
    rw [h1]
    exact wrap_eq _ _
  encodeBothChange e r vm cls ins own h hr := by
    obtain ⟨hlo, r', h1, h2⟩ := hr
    refine (LawfulBoth.encodeBothChange e.enc r' vm cls _ own h.1 h2).of_map (fun x => ⟨x, e.sum⟩) (fun col => ?_)
      fun e' n c o hi ha => ⟨⟨hi, h.2⟩, eq_avail (VM := VM) h1 hlo h.2 ha⟩
    show (match e.convert (prepareBothRange e.sum r) with | none => none | some r => _) = _
    rw [h1]
    exact wrap_eq _ _
  eq_total e n cls ins own b h := by
    show _ ∧ (if e.sum ≥ b then EnforceEq.enforceEq e.enc (e.sum - b) else .err .unsat) = _ ∨
      _ ∧ ((∃ A, (if e.sum ≥ b then EnforceEq.enforceEq e.enc (e.sum - b) else .err .unsat) = _) ∨
        (if e.sum ≥ b then EnforceEq.enforceEq e.enc (e.sum - b) else .err .unsat) = _)
    by_cases hb : e.sum ≥ b
    · rw [if_pos hb]
      rw [h.2] at hb
      rcases LawfulBoth.eq_total _ n cls _ own (e.sum - b) h.1 with ⟨h1, -⟩ | ⟨-, h1⟩
      · rw [Item.total_neg] at h1
        have := h.2
        omega
      · exact Or.inr ⟨hb, h1⟩
    · rw [if_neg hb]
      rw [h.2] at hb
      exact Or.inl ⟨by omega, rfl⟩
  enforceEq e n cls ins own b A h hA := by
    change (if e.sum ≥ b then EnforceEq.enforceEq e.enc (e.sum - b) else .err .unsat) = _ at hA
    by_cases hb : e.sum ≥ b
    · rw [if_pos hb] at hA
      refine (LawfulBoth.enforceEq _ n cls _ own _ A h.1 hA).congr (fun v hv => (Item.vars_neg _ _).1 hv) fun a => ?_
      have := Item.value_neg a ins
      rw [← h.2] at this
      omega
    · rw [if_neg hb] at hA; cases hA

end Inverted

/-! ### Card -/

namespace CardSim
variable {E VM : Type} [ManageVars VM] [Encoder E Lit] [EncodeInc E VM]

theorem multiply_append (a b : List (Lit × Nat)) : multiply (a ++ b) = multiply a ++ multiply b := by
  unfold multiply; rw [List.flatMap_append]

theorem mem_multiply {l : List (Lit × Nat)} (h : ∀ x ∈ l, 0 < x.2) (y : Lit) : y ∈ multiply l ↔ ∃ x ∈ l, x.1 = y := by
  unfold multiply
  rw [List.mem_flatMap]
  constructor
  · rintro ⟨x, hx, hy⟩
    exact ⟨x, hx, (List.eq_of_mem_replicate hy).symm⟩
  · rintro ⟨x, hx, rfl⟩
    exact ⟨x, hx, List.mem_replicate.2 ⟨by have := h x hx; omega, rfl⟩⟩

theorem vars_multiply {l : List (Lit × Nat)} (h : ∀ x ∈ l, 0 < x.2) (v : Nat) : Item.vars (multiply l) v ↔ Item.vars l v := by
  constructor
  · rintro ⟨y, hy, rfl⟩
    obtain ⟨x, hx, rfl⟩ := (mem_multiply h y).1 hy
    exact ⟨x, hx, rfl⟩
  · rintro ⟨x, hx, rfl⟩
    exact ⟨x.1, (mem_multiply h _).2 ⟨x, hx, rfl⟩, rfl⟩

theorem value_replicate (a : Asg) (l : Lit) (w : Nat) :
    Item.value a (List.replicate w l) = if l.holds a then w else 0 := by
  induction w with
  | zero => simp [Item.value]
  | succ w ih =>
    rw [List.replicate_succ, Item.value_cons, ih]
    show (if l.holds a = true then 1 else 0) + _ = _
    cases l.holds a <;> simp
    omega

theorem value_multiply (a : Asg) (l : List (Lit × Nat)) : Item.value a (multiply l) = Item.value a l := by
  induction l with
  | nil => rfl
  | cons x l ih =>
    rw [show multiply (x :: l) = List.replicate x.2 x.1 ++ multiply l from by simp [multiply], Item.value_append,
      value_replicate, ih, Item.value_cons]
    rfl

theorem total_multiply (l : List (Lit × Nat)) : Item.total (multiply l) = Item.total l := by
  induction l with
  | nil => rfl
  | cons x l ih =>
    rw [show multiply (x :: l) = List.replicate x.2 x.1 ++ multiply l from by simp [multiply], Item.total_append,
      Item.total_lit, List.length_replicate, ih, Item.total_cons]
    rfl

instance [LawfulEnc E Lit VM] : LawfulEnc (CardSim E) (Lit × Nat) VM where
  Inv e n cls ins own := LawfulEnc.Inv VM e.enc n cls (multiply ins) own ∧ ∀ x ∈ ins, 0 < x.2
  same e e' := LawfulEnc.same VM e.enc e'.enc
  new ins n hd h := by
    refine ⟨LawfulEnc.new _ n trivial fun y hy => ⟨Nat.one_pos, ?_⟩, fun x hx => (h x hx).1⟩
    obtain ⟨x, hx, rfl⟩ := (mem_multiply (fun x hx => (h x hx).1) y).1 hy
    exact (h x hx).2
  extend e n cls ins own lits h hd hl := by
    refine ⟨?_, fun x hx => ?_⟩
    · rw [multiply_append]
      refine LawfulEnc.extend _ n cls _ own _ h.1 trivial fun y hy => ⟨Nat.one_pos, ?_⟩
      obtain ⟨x, hx, rfl⟩ := (mem_multiply (fun x hx => (hl x hx).1) y).1 hy
      exact (hl x hx).2
    · rcases List.mem_append.1 hx with hx | hx
      · exact h.2 x hx
      · exact (hl x hx).1
  reserve e vm cls ins own h := by
    obtain ⟨e', vm', h1, h2, h3⟩ := LawfulEnc.reserve e.enc vm cls _ own h.1
    refine ⟨⟨e'⟩, vm', ?_, h2, h3, h.2⟩
    show (EncodeInc.reserve e.enc vm).map _ = _
    rw [h1]
    rfl
  same_inv e e' n cls ins own h hs := ⟨LawfulEnc.same_inv _ _ n cls _ own h.1 hs, h.2⟩
  more e n n' cls ins own h hn := ⟨LawfulEnc.more _ n n' cls _ own h.1 hn, h.2⟩
  weightSum e n cls ins own h := by rw [← total_multiply]; exact LawfulEnc.weightSum _ n cls _ own h.1
  ownLt e n cls ins own h := LawfulEnc.ownLt _ n cls _ own h.1
  disj e n cls ins own h v hv := by rw [← vars_multiply h.2]; exact LawfulEnc.disj _ n cls _ own h.1 v hv
  vars e n cls ins own h c hc l hl := by rw [← vars_multiply h.2]; exact LawfulEnc.vars _ n cls _ own h.1 c hc l hl
  free e n cls ins own h := LawfulEnc.free _ n cls _ own h.1

instance [LawfulEnc E Lit VM] [BoundUpper E VM] [EnforceUb E] [LawfulUb E Lit VM] : LawfulUb (CardSim E) (Lit × Nat) VM where
  ubOk e r := LawfulUb.ubOk VM e.enc r
  encodeUb e r vm cls ins own h hr :=
    (LawfulUb.encodeUb e.enc r vm cls _ own h.1 hr).of_map (fun x => ⟨x⟩) (fun _ => rfl) fun _ _ _ _ hi ha => ⟨⟨hi, h.2⟩, ha⟩
  encodeUbChange e r vm cls ins own h hr :=
    (LawfulUb.encodeUbChange e.enc r vm cls _ own h.1 hr).of_map (fun x => ⟨x⟩) (fun _ => rfl)
      fun _ _ _ _ hi ha => ⟨⟨hi, h.2⟩, ha⟩
  ub_total e n cls ins own b h := LawfulUb.ub_total e.enc n cls _ own b h.1
  ub_max e n cls ins own b h hb := LawfulUb.ub_max e.enc n cls _ own b h.1 (by rw [total_multiply]; exact hb)
  enforceUb e n cls ins own b A h hA :=
    (LawfulUb.enforceUb e.enc n cls _ own b A h.1 hA).congr (fun v hv => (vars_multiply h.2 v).1 hv) fun a => by
      rw [value_multiply]

instance [LawfulEnc E Lit VM] [BoundLower E VM] [EnforceLb E] [LawfulLb E Lit VM] : LawfulLb (CardSim E) (Lit × Nat) VM where
  lbOk e r := LawfulLb.lbOk VM e.enc r
  encodeLb e r vm cls ins own h hr :=
    (LawfulLb.encodeLb e.enc r vm cls _ own h.1 hr).of_map (fun x => ⟨x⟩) (fun _ => rfl)
      fun _ _ _ _ hi ha => ⟨⟨hi, h.2⟩, fun b hb hle => ha b hb (by rw [total_multiply]; exact hle)⟩
  encodeLbChange e r vm cls ins own h hr :=
    (LawfulLb.encodeLbChange e.enc r vm cls _ own h.1 hr).of_map (fun x => ⟨x⟩) (fun _ => rfl)
      fun _ _ _ _ hi ha => ⟨⟨hi, h.2⟩, fun b hb hle => ha b hb (by rw [total_multiply]; exact hle)⟩
  lb_total e n cls ins own b h := by rw [← total_multiply]; exact LawfulLb.lb_total e.enc n cls _ own b h.1
  enforceLb e n cls ins own b A h hA :=
    (LawfulLb.enforceLb e.enc n cls _ own b A h.1 hA).congr (fun v hv => (vars_multiply h.2 v).1 hv) fun a => by
      rw [value_multiply]

instance [LawfulEnc E Lit VM] [BoundBoth E VM] [EnforceEq E] [LawfulBoth E Lit VM] : LawfulBoth (CardSim E) (Lit × Nat) VM where
  bothOk e r := LawfulBoth.bothOk VM e.enc r
  encodeBoth e r vm cls ins own h hr :=
    (LawfulBoth.encodeBoth e.enc r vm cls _ own h.1 hr).of_map (fun x => ⟨x⟩) (fun _ => rfl)
      fun _ _ _ _ hi ha => ⟨⟨hi, h.2⟩, fun b hb hle => ha b hb (by rw [total_multiply]; exact hle)⟩
  encodeBothChange e r vm cls ins own h hr :=
    (LawfulBoth.encodeBothChange e.enc r vm cls _ own h.1 hr).of_map (fun x => ⟨x⟩) (fun _ => rfl)
      fun _ _ _ _ hi ha => ⟨⟨hi, h.2⟩, fun b hb hle => ha b hb (by rw [total_multiply]; exact hle)⟩
  eq_total e n cls ins own b h := by rw [← total_multiply]; exact LawfulBoth.eq_total e.enc n cls _ own b h.1
  enforceEq e n cls ins own b A h hA :=
    (LawfulBoth.enforceEq e.enc n cls _ own b A h.1 hA).congr (fun v hv => (vars_multiply h.2 v).1 hv) fun a => by
      rw [value_multiply]

end CardSim

/-! ### Double -/

namespace Double
variable {U L ι VM : Type} [ManageVars VM] [Item ι] [LawfulItem ι] [Encoder U ι] [Encoder L ι] [EncodeInc U VM]
  [EncodeInc L VM]

/-- The clauses and variables of the two encoders. -/
structure Inv [LawfulEnc U ι VM] [LawfulEnc L ι VM] (e : Double U L) (n : Nat) (cls : ClauseSet) (ins : List ι)
    (own : List Nat) (c1 c2 : ClauseSet) (o1 o2 : List Nat) : Prop where
  ub : LawfulEnc.Inv VM e.ubEnc n c1 ins o1
  lb : LawfulEnc.Inv VM e.lbEnc n c2 ins o2
  cls : ∀ c, c ∈ cls ↔ c ∈ c1 ∨ c ∈ c2
  own : ∀ v, v ∈ own ↔ v ∈ o1 ∨ v ∈ o2
  disj : ∀ v ∈ o1, v ∉ o2

namespace Inv
variable [LawfulEnc U ι VM] [LawfulEnc L ι VM] {e : Double U L} {n : Nat} {cls : ClauseSet} {ins : List ι} {own : List Nat}
  {c1 c2 : ClauseSet} {o1 o2 : List Nat}

theorem sat (h : Inv (VM := VM) e n cls ins own c1 c2 o1 o2) (m : Asg) :
    ClauseSet.sat m cls ↔ ClauseSet.sat m c1 ∧ ClauseSet.sat m c2 := by
  constructor
  · intro hm
    exact ⟨fun c hc => hm c ((h.cls c).2 (Or.inl hc)), fun c hc => hm c ((h.cls c).2 (Or.inr hc))⟩
  · rintro ⟨h1, h2⟩ c hc
    exact ((h.cls c).1 hc).elim (h1 c) (h2 c)

theorem swap (h : Inv (VM := VM) e n cls ins own c1 c2 o1 o2) : Inv (VM := VM) (⟨e.lbEnc, e.ubEnc⟩ : Double L U) n cls ins own c2 c1 o2 o1 :=
  ⟨h.lb, h.ub, fun c => by rw [h.cls]; exact Or.comm, fun v => by rw [h.own]; exact Or.comm, fun v h1 h2 => h.disj v h2 h1⟩

theorem stepUb {f : VM → ClauseSet → Option (U × VM × ClauseSet)}
    {vm : VM} (h : Inv (VM := VM) e (ManageVars.nUsed vm) cls ins own c1 c2 o1 o2) {P : U → Prop}
    (hf : EncodeOk (LawfulEnc.Inv VM) f vm c1 ins o1 P) (col : ClauseSet) :
    ∃ u vm' new, f vm col = some (u, vm', col ++ new) ∧ ManageVars.nUsed vm ≤ ManageVars.nUsed vm' ∧
      Inv (VM := VM) ⟨u, e.lbEnc⟩ (ManageVars.nUsed vm') (cls ++ new) ins (own ++ CardWorld.handedOut vm vm') (c1 ++ new) c2
        (o1 ++ CardWorld.handedOut vm vm') o2 ∧ P u := by
  obtain ⟨u, vm', new, e1, e2, e3, e4⟩ := hf col
  refine ⟨u, vm', new, e1, e2, ⟨e3, LawfulEnc.more _ _ _ _ _ _ h.lb e2, fun c => ?_, fun v => ?_, fun v h1 h2 => ?_⟩, e4⟩
  · rw [List.mem_append, List.mem_append, h.cls]
    exact ⟨fun h => h.elim (fun h => h.elim (fun h => Or.inl (Or.inl h)) Or.inr) fun h => Or.inl (Or.inr h),
      fun h => h.elim (fun h => h.elim (fun h => Or.inl (Or.inl h)) Or.inr) fun h => Or.inl (Or.inr h)⟩
  · rw [List.mem_append, List.mem_append, h.own]
    exact ⟨fun h => h.elim (fun h => h.elim (fun h => Or.inl (Or.inl h)) Or.inr) fun h => Or.inl (Or.inr h),
      fun h => h.elim (fun h => h.elim (fun h => Or.inl (Or.inl h)) Or.inr) fun h => Or.inl (Or.inr h)⟩
  · rcases List.mem_append.1 h1 with h1 | h1
    · exact h.disj v h1 h2
    · have := LawfulEnc.ownLt _ _ _ _ _ h.lb v h2
      have := (mem_handedOut.1 h1).1
      omega

theorem stepLb {f : VM → ClauseSet → Option (L × VM × ClauseSet)}
    {vm : VM} (h : Inv (VM := VM) e (ManageVars.nUsed vm) cls ins own c1 c2 o1 o2) {P : L → Prop}
    (hf : EncodeOk (LawfulEnc.Inv VM) f vm c2 ins o2 P) (col : ClauseSet) :
    ∃ l vm' new, f vm col = some (l, vm', col ++ new) ∧ ManageVars.nUsed vm ≤ ManageVars.nUsed vm' ∧
      Inv (VM := VM) ⟨e.ubEnc, l⟩ (ManageVars.nUsed vm') (cls ++ new) ins (own ++ CardWorld.handedOut vm vm') c1 (c2 ++ new)
        o1 (o2 ++ CardWorld.handedOut vm vm') ∧ P l := by
  obtain ⟨l, vm', new, e1, e2, e3, e4⟩ := h.swap.stepUb hf col
  exact ⟨l, vm', new, e1, e2, e3.swap, e4⟩

/-- A model for the first encoder can be extended to one for both. -/
theorem extendUb (h : Inv (VM := VM) e n cls ins own c1 c2 o1 o2) {A : List Lit} {a : Asg} {P : Asg → Prop}
    (hA : Enforces c1 o1 (Item.vars ins) A P) (ha : P a) :
    ∃ m, (∀ v, v ∉ own → m v = a v) ∧ ClauseSet.sat m cls ∧ cubeSat m A := by
  obtain ⟨m1, p1, p2, p3⟩ := hA.complete a ha
  obtain ⟨m2, q1, q2⟩ := LawfulEnc.free _ _ _ _ _ h.lb m1
  have hx : ∀ v, Item.vars ins v ∨ v ∈ o1 → m1 v = m2 v := fun v hv => by
    refine (q1 v fun h2 => ?_).symm
    rcases hv with hv | hv
    · exact LawfulEnc.disj _ _ _ _ _ h.lb v h2 hv
    · exact h.disj v hv h2
  refine ⟨m2, fun v hv => ?_, (h.sat m2).2 ⟨ClauseSet.sat_congr (fun c hc l hl => hx _ (LawfulEnc.vars _ _ _ _ _ h.ub c hc l hl)) p2, q2⟩,
    fun l hl => ?_⟩
  · rw [h.own] at hv
    rw [q1 v fun h => hv (Or.inr h), p1 v fun h => hv (Or.inl h)]
  · rw [← Lit.holds_congr (hx _ (hA.vars l hl))]
    exact p3 l hl

theorem enforcesUb (h : Inv (VM := VM) e n cls ins own c1 c2 o1 o2) {A : List Lit} {P : Asg → Prop}
    (hA : Enforces c1 o1 (Item.vars ins) A P) : Enforces cls own (Item.vars ins) A P :=
  ⟨fun m hm hc => hA.sound m ((h.sat m).1 hm).1 hc, fun _ ha => h.extendUb hA ha,
    fun l hl => (hA.vars l hl).imp (fun h => h) fun h' => (h.own _).2 (Or.inl h')⟩

theorem enforcesLb (h : Inv (VM := VM) e n cls ins own c1 c2 o1 o2) {A : List Lit} {P : Asg → Prop}
    (hA : Enforces c2 o2 (Item.vars ins) A P) : Enforces cls own (Item.vars ins) A P := h.swap.enforcesUb hA

/-- Both bounds at once. -/
theorem enforcesBoth (h : Inv (VM := VM) e n cls ins own c1 c2 o1 o2) {A B : List Lit} {P Q : Asg → Prop}
    (hA : Enforces c1 o1 (Item.vars ins) A P) (hB : Enforces c2 o2 (Item.vars ins) B Q)
    (hQ : ∀ a b : Asg, (∀ v, Item.vars ins v → a v = b v) → Q a → Q b) :
    Enforces cls own (Item.vars ins) (A ++ B) fun a => P a ∧ Q a := by
  refine ⟨fun m hm hc => ?_, fun a ha => ?_, fun l hl => ?_⟩
  · obtain ⟨h1, h2⟩ := (h.sat m).1 hm
    exact ⟨hA.sound m h1 fun x hx => hc x (List.mem_append_left _ hx), hB.sound m h2 fun x hx => hc x (List.mem_append_right _ hx)⟩
  · obtain ⟨m1, p1, p2, p3⟩ := hA.complete a ha.1
    obtain ⟨m2, q1, q2, q3⟩ := hB.complete m1 (hQ a m1 (fun v hv => (p1 v fun h1 =>
      LawfulEnc.disj _ _ _ _ _ h.ub v h1 hv).symm) ha.2)
    have hx : ∀ v, Item.vars ins v ∨ v ∈ o1 → m1 v = m2 v := fun v hv => by
      refine (q1 v fun h2 => ?_).symm
      rcases hv with hv | hv
      · exact LawfulEnc.disj _ _ _ _ _ h.lb v h2 hv
      · exact h.disj v hv h2
    refine ⟨m2, fun v hv => ?_, (h.sat m2).2 ⟨ClauseSet.sat_congr (fun c hc l hl => hx _ (LawfulEnc.vars _ _ _ _ _ h.ub c hc l hl)) p2, q2⟩,
      fun l hl => ?_⟩
    · rw [h.own] at hv
      rw [q1 v fun h => hv (Or.inr h), p1 v fun h => hv (Or.inl h)]
    · rcases List.mem_append.1 hl with hl | hl
      · rw [← Lit.holds_congr (hx _ (hA.vars l hl))]
        exact p3 l hl
      · exact q3 l hl
  · rcases List.mem_append.1 hl with hl | hl
    · exact (hA.vars l hl).imp (fun h => h) fun h' => (h.own _).2 (Or.inl h')
    · exact (hB.vars l hl).imp (fun h => h) fun h' => (h.own _).2 (Or.inr h')

end Inv

omit [Encoder L ι] [EncodeInc L VM] in
theorem reserveOk [LawfulEnc U ι VM] (x : U) (vm : VM) (c : ClauseSet) (ins : List ι) (o : List Nat)
    (hi : LawfulEnc.Inv VM x (ManageVars.nUsed vm) c ins o) :
    EncodeOk (LawfulEnc.Inv VM) (fun vm col => (EncodeInc.reserve x vm).map fun y => (y.1, y.2, col)) vm c ins o
      fun _ => True := by
  intro col
  obtain ⟨x', vm', p1, p2, p3⟩ := LawfulEnc.reserve x vm c ins o hi
  exact ⟨x', vm', [], by simp [p1], p2, by simpa using p3, trivial⟩

instance [LawfulEnc U ι VM] [LawfulEnc L ι VM] : LawfulEnc (Double U L) ι VM where
  Inv e n cls ins own := ∃ c1 c2 o1 o2, Inv (VM := VM) e n cls ins own c1 c2 o1 o2
  same e e' := LawfulEnc.same VM e.ubEnc e'.ubEnc ∧ LawfulEnc.same VM e.lbEnc e'.lbEnc
  new ins n hd h := by
    refine ⟨[], [], [], [], ?_, ?_, by simp, by simp, by simp⟩
    · show LawfulEnc.Inv VM (Encoder.new (Item.collect ins)) _ _ _ _
      rw [LawfulItem.collect ins hd]
      exact LawfulEnc.new ins n hd h
    · show LawfulEnc.Inv VM (Encoder.new (Item.collect ins)) _ _ _ _
      rw [LawfulItem.collect ins hd]
      exact LawfulEnc.new ins n hd h
  extend e n cls ins own lits h hd hl := by
    obtain ⟨c1, c2, o1, o2, h⟩ := h
    refine ⟨c1, c2, o1, o2, ?_, ?_, h.cls, h.own, h.disj⟩
    · show LawfulEnc.Inv VM (Encoder.extend e.ubEnc (Item.collect lits)) _ _ _ _
      rw [LawfulItem.collect lits hd]
      exact LawfulEnc.extend _ n c1 ins o1 lits h.ub hd fun x hx =>
        ⟨(hl x hx).1, (hl x hx).2.1, fun h' => (hl x hx).2.2 ((h.own _).2 (Or.inl h'))⟩
    · show LawfulEnc.Inv VM (Encoder.extend e.lbEnc (Item.collect lits)) _ _ _ _
      rw [LawfulItem.collect lits hd]
      exact LawfulEnc.extend _ n c2 ins o2 lits h.lb hd fun x hx =>
        ⟨(hl x hx).1, (hl x hx).2.1, fun h' => (hl x hx).2.2 ((h.own _).2 (Or.inr h'))⟩
  reserve e vm cls ins own h := by
    obtain ⟨c1, c2, o1, o2, h⟩ := h
    obtain ⟨u, vm1, n1, e1, u1, i1, -⟩ := h.stepUb (reserveOk e.ubEnc vm c1 ins o1 h.ub) []
    obtain ⟨l, vm2, n2, e2, u2, i2, -⟩ := i1.stepLb (reserveOk e.lbEnc vm1 c2 ins o2 i1.lb) []
    have f1 : EncodeInc.reserve e.ubEnc vm = some (u, vm1) ∧ n1 = [] := by
      cases hr : EncodeInc.reserve e.ubEnc vm with
      | none => rw [hr] at e1; cases e1
      | some y => rw [hr] at e1; cases e1; exact ⟨rfl, rfl⟩
    have f2 : EncodeInc.reserve e.lbEnc vm1 = some (l, vm2) ∧ n2 = [] := by
      cases hr : EncodeInc.reserve e.lbEnc vm1 with
      | none => rw [hr] at e2; cases e2
      | some y => rw [hr] at e2; cases e2; exact ⟨rfl, rfl⟩
    obtain ⟨f1, rfl⟩ := f1
    obtain ⟨f2, rfl⟩ := f2
    rw [List.append_assoc own, Totalizer.Inv.handedOut_trans u1 u2, List.append_nil cls, List.append_nil cls] at i2
    refine ⟨⟨u, l⟩, vm2, ?_, Nat.le_trans u1 u2, _, _, _, _, i2⟩
    show (match EncodeInc.reserve e.ubEnc vm with
      | none => none
      | some (u, vm) => match EncodeInc.reserve e.lbEnc vm with
        | none => none
        | some (l, vm) => some ((⟨u, l⟩ : Double U L), vm)) = _
    rw [f1]
    simp only
    rw [f2]
  same_inv e e' n cls ins own h hs := by
    obtain ⟨c1, c2, o1, o2, h⟩ := h
    exact ⟨c1, c2, o1, o2, LawfulEnc.same_inv _ _ _ _ _ _ h.ub hs.1, LawfulEnc.same_inv _ _ _ _ _ _ h.lb hs.2, h.cls, h.own, h.disj⟩
  more e n n' cls ins own h hn := by
    obtain ⟨c1, c2, o1, o2, h⟩ := h
    exact ⟨c1, c2, o1, o2, LawfulEnc.more _ _ _ _ _ _ h.ub hn, LawfulEnc.more _ _ _ _ _ _ h.lb hn, h.cls, h.own, h.disj⟩
  weightSum e n cls ins own h := by
    obtain ⟨c1, c2, o1, o2, h⟩ := h
    exact LawfulEnc.weightSum (VM := VM) e.ubEnc n c1 ins o1 h.ub
  ownLt e n cls ins own h v hv := by
    obtain ⟨c1, c2, o1, o2, h⟩ := h
    exact ((h.own v).1 hv).elim (LawfulEnc.ownLt _ _ _ _ _ h.ub v) (LawfulEnc.ownLt _ _ _ _ _ h.lb v)
  disj e n cls ins own h v hv := by
    obtain ⟨c1, c2, o1, o2, h⟩ := h
    exact ((h.own v).1 hv).elim (LawfulEnc.disj _ _ _ _ _ h.ub v) (LawfulEnc.disj _ _ _ _ _ h.lb v)
  vars e n cls ins own h c hc l hl := by
    obtain ⟨c1, c2, o1, o2, h⟩ := h
    rw [h.own]
    rcases (h.cls c).1 hc with hc | hc
    · exact (LawfulEnc.vars _ _ _ _ _ h.ub c hc l hl).imp (fun h => h) Or.inl
    · exact (LawfulEnc.vars _ _ _ _ _ h.lb c hc l hl).imp (fun h => h) Or.inr
  free e n cls ins own h a := by
    obtain ⟨c1, c2, o1, o2, h⟩ := h
    have hA : Enforces c1 o1 (Item.vars ins) [] fun _ => True :=
      ⟨fun _ _ _ => trivial, fun a _ => by
        obtain ⟨m, h1, h2⟩ := LawfulEnc.free _ _ _ _ _ h.ub a
        exact ⟨m, h1, h2, by simp [cubeSat]⟩, fun l hl => (by cases hl)⟩
    obtain ⟨m, h1, h2, -⟩ := h.extendUb hA trivial
    exact ⟨m, h1, h2⟩

variable [LawfulEnc U ι VM] [LawfulEnc L ι VM]

omit [ManageVars VM] [LawfulItem ι] [EncodeInc U VM] [EncodeInc L VM] [Encoder U ι] [Encoder L ι] [Item ι] [LawfulEnc U ι VM] [LawfulEnc L ι VM] in
theorem ub_step {f : VM → ClauseSet → Option (U × VM × ClauseSet)} {x : L} {vm vm' : VM} {col new : ClauseSet} {u : U}
    (h : f vm col = some (u, vm', col ++ new)) :
    ((f vm col).map fun (u, vm, cls) => ((⟨u, x⟩ : Double U L), vm, cls)) = some (⟨u, x⟩, vm', col ++ new) := by rw [h]; rfl

instance [BoundUpper U VM] [EnforceUb U] [LawfulUb U ι VM] : LawfulUb (Double U L) ι VM where
  ubOk e r := LawfulUb.ubOk VM e.ubEnc r
  encodeUb e r vm cls ins own h hr col := by
    obtain ⟨c1, c2, o1, o2, h⟩ := h
    obtain ⟨u, vm', new, e1, u1, i1, a1⟩ := h.stepUb (LawfulUb.encodeUb e.ubEnc r vm c1 ins o1 h.ub hr) col
    exact ⟨⟨u, e.lbEnc⟩, vm', new, ub_step e1, u1, ⟨_, _, _, _, i1⟩, a1⟩
  encodeUbChange e r vm cls ins own h hr col := by
    obtain ⟨c1, c2, o1, o2, h⟩ := h
    obtain ⟨u, vm', new, e1, u1, i1, a1⟩ := h.stepUb (LawfulUb.encodeUbChange e.ubEnc r vm c1 ins o1 h.ub hr) col
    exact ⟨⟨u, e.lbEnc⟩, vm', new, ub_step e1, u1, ⟨_, _, _, _, i1⟩, a1⟩
  ub_total e n cls ins own b h := by
    obtain ⟨c1, c2, o1, o2, h⟩ := h
    exact LawfulUb.ub_total e.ubEnc n c1 ins o1 b h.ub
  ub_max e n cls ins own b h hb := by
    obtain ⟨c1, c2, o1, o2, h⟩ := h
    exact LawfulUb.ub_max e.ubEnc n c1 ins o1 b h.ub hb
  enforceUb e n cls ins own b A h hA := by
    obtain ⟨c1, c2, o1, o2, h⟩ := h
    exact h.enforcesUb (LawfulUb.enforceUb e.ubEnc n c1 ins o1 b A h.ub hA)

instance [BoundLower L VM] [EnforceLb L] [LawfulLb L ι VM] : LawfulLb (Double U L) ι VM where
  lbOk e r := LawfulLb.lbOk VM e.lbEnc r
  encodeLb e r vm cls ins own h hr col := by
    obtain ⟨c1, c2, o1, o2, h⟩ := h
    obtain ⟨l, vm', new, e1, u1, i1, a1⟩ := h.stepLb (LawfulLb.encodeLb e.lbEnc r vm c2 ins o2 h.lb hr) col
    refine ⟨⟨e.ubEnc, l⟩, vm', new, ?_, u1, ⟨_, _, _, _, i1⟩, a1⟩
    show (BoundLower.encodeLb e.lbEnc r vm col).map _ = _
    rw [e1]
    rfl
  encodeLbChange e r vm cls ins own h hr col := by
    obtain ⟨c1, c2, o1, o2, h⟩ := h
    obtain ⟨l, vm', new, e1, u1, i1, a1⟩ := h.stepLb (LawfulLb.encodeLbChange e.lbEnc r vm c2 ins o2 h.lb hr) col
    refine ⟨⟨e.ubEnc, l⟩, vm', new, ?_, u1, ⟨_, _, _, _, i1⟩, a1⟩
    show (BoundLower.encodeLbChange e.lbEnc r vm col).map _ = _
    rw [e1]
    rfl
  lb_total e n cls ins own b h := by
    obtain ⟨c1, c2, o1, o2, h⟩ := h
    exact LawfulLb.lb_total e.lbEnc n c2 ins o2 b h.lb
  enforceLb e n cls ins own b A h hA := by
    obtain ⟨c1, c2, o1, o2, h⟩ := h
    exact h.enforcesLb (LawfulLb.enforceLb e.lbEnc n c2 ins o2 b A h.lb hA)

theorem eq_avail {u : Res EnforceError (List Lit)} {l : Res EnforceError (List Lit)} (hu : ∃ A, u = .ok A) (hl : ∃ A, l = .ok A) :
    ∃ A, enforceBoth u l = .ok A := by
  obtain ⟨A, rfl⟩ := hu
  obtain ⟨B, rfl⟩ := hl
  exact ⟨A ++ B, rfl⟩

instance [BoundUpper U VM] [EnforceUb U] [LawfulUb U ι VM] [BoundLower L VM] [EnforceLb L] [LawfulLb L ι VM] :
    LawfulBoth (Double U L) ι VM where
  bothOk e r := LawfulUb.ubOk VM e.ubEnc r ∧ LawfulLb.lbOk VM e.lbEnc r
  encodeBoth e r vm cls ins own h hr col := by
    obtain ⟨c1, c2, o1, o2, h⟩ := h
    obtain ⟨u, vm1, n1, e1, u1, i1, a1⟩ := h.stepUb (LawfulUb.encodeUb e.ubEnc r vm c1 ins o1 h.ub hr.1) col
    obtain ⟨l, vm2, n2, e2, u2, i2, a2⟩ := i1.stepLb (LawfulLb.encodeLb e.lbEnc r vm1 c2 ins o2 i1.lb hr.2) (col ++ n1)
    rw [List.append_assoc, List.append_assoc own, Totalizer.Inv.handedOut_trans u1 u2] at i2
    refine ⟨⟨u, l⟩, vm2, n1 ++ n2, ?_, Nat.le_trans u1 u2, ⟨_, _, _, _, i2⟩, fun b hb hle => eq_avail (a1 b hb) (a2 b hb hle)⟩
    show (match (BoundUpper.encodeUb e r vm col : Option (Double U L × VM × ClauseSet)) with
      | none => none
      | some (e, vm, cls) => BoundLower.encodeLb e r vm cls) = _
    rw [show BoundUpper.encodeUb e r vm col = some ((⟨u, e.lbEnc⟩ : Double U L), vm1, col ++ n1) from ub_step e1]
    show (BoundLower.encodeLb e.lbEnc r vm1 (col ++ n1)).map _ = _
    rw [e2, List.append_assoc]
    rfl
  encodeBothChange e r vm cls ins own h hr col := by
    obtain ⟨c1, c2, o1, o2, h⟩ := h
    obtain ⟨u, vm1, n1, e1, u1, i1, a1⟩ := h.stepUb (LawfulUb.encodeUbChange e.ubEnc r vm c1 ins o1 h.ub hr.1) col
    obtain ⟨l, vm2, n2, e2, u2, i2, a2⟩ := i1.stepLb (LawfulLb.encodeLbChange e.lbEnc r vm1 c2 ins o2 i1.lb hr.2) (col ++ n1)
    rw [List.append_assoc, List.append_assoc own, Totalizer.Inv.handedOut_trans u1 u2] at i2
    refine ⟨⟨u, l⟩, vm2, n1 ++ n2, ?_, Nat.le_trans u1 u2, ⟨_, _, _, _, i2⟩, fun b hb hle => eq_avail (a1 b hb) (a2 b hb hle)⟩
    show (match (BoundUpper.encodeUbChange e r vm col : Option (Double U L × VM × ClauseSet)) with
      | none => none
      | some (e, vm, cls) => BoundLower.encodeLbChange e r vm cls) = _
    rw [show BoundUpper.encodeUbChange e r vm col = some ((⟨u, e.lbEnc⟩ : Double U L), vm1, col ++ n1) from ub_step e1]
    show (BoundLower.encodeLbChange e.lbEnc r vm1 (col ++ n1)).map _ = _
    rw [e2, List.append_assoc]
    rfl
  eq_total e n cls ins own b h := by
    obtain ⟨c1, c2, o1, o2, h⟩ := h
    show _ ∧ enforceBoth (EnforceUb.enforceUb e.ubEnc b) (EnforceLb.enforceLb e.lbEnc b) = _ ∨
      _ ∧ ((∃ A, enforceBoth (EnforceUb.enforceUb e.ubEnc b) (EnforceLb.enforceLb e.lbEnc b) = _) ∨
        enforceBoth (EnforceUb.enforceUb e.ubEnc b) (EnforceLb.enforceLb e.lbEnc b) = _)
    rcases LawfulLb.lb_total e.lbEnc n c2 ins o2 b h.lb with ⟨p, q⟩ | ⟨p, ⟨A, q⟩ | q⟩
    · obtain ⟨A, e1⟩ := LawfulUb.ub_max e.ubEnc n c1 ins o1 b h.ub (Nat.le_of_lt p)
      rw [e1, q]
      exact Or.inl ⟨p, rfl⟩
    · rcases LawfulUb.ub_total e.ubEnc n c1 ins o1 b h.ub with ⟨B, e1⟩ | e1
      · rw [e1, q]; exact Or.inr ⟨p, Or.inl ⟨_, rfl⟩⟩
      · rw [e1]; exact Or.inr ⟨p, Or.inr rfl⟩
    · rcases LawfulUb.ub_total e.ubEnc n c1 ins o1 b h.ub with ⟨B, e1⟩ | e1
      · rw [e1, q]; exact Or.inr ⟨p, Or.inr rfl⟩
      · rw [e1]; exact Or.inr ⟨p, Or.inr rfl⟩
  enforceEq e n cls ins own b A h hA := by
    obtain ⟨c1, c2, o1, o2, h⟩ := h
    obtain ⟨A1, A2, e1, e2, rfl⟩ := enforceBoth_ok (u := EnforceUb.enforceUb e.ubEnc b) (l := EnforceLb.enforceLb e.lbEnc b) hA
    refine (h.enforcesBoth (LawfulUb.enforceUb e.ubEnc n c1 ins o1 b A1 h.ub e1)
      (LawfulLb.enforceLb e.lbEnc n c2 ins o2 b A2 h.lb e2) fun x y hxy hq => ?_).congr (fun v hv => hv) fun a => ?_
    · rw [← Item.value_congr fun z hz => hxy _ ⟨z, hz, rfl⟩]
      exact hq
    · omega

end Double

/-! ### Histories -/

section
variable {E ι VM : Type} [ManageVars VM] [Item ι] [LawfulItem ι] [Encoder E ι] [EncodeInc E VM] [LawfulEnc E ι VM]

/-- Calls that may be made do not panic and preserve the invariant. -/
def CallsOk (calls : E → (VM → ClauseSet → Option (E × VM × ClauseSet)) → Prop) : Prop :=
  ∀ e f vm cls ins own, calls e f → LawfulEnc.Inv VM e (ManageVars.nUsed vm) cls ins own →
    EncodeOk (LawfulEnc.Inv VM) f vm cls ins own fun _ => True

theorem EncReach.inv {calls : E → (VM → ClauseSet → Option (E × VM × ClauseSet)) → Prop} (hc : CallsOk calls)
    {w : EncWorld E ι VM} (h : EncReach (LawfulEnc.same VM) calls w) :
    LawfulEnc.Inv VM w.enc (ManageVars.nUsed w.vm) w.cls w.ins w.own := by
  induction h with
  | start lits vm hd h => exact LawfulEnc.new lits _ hd h
  | add w lits _ hd h ih => exact LawfulEnc.extend _ _ _ _ _ lits ih hd h
  | call w f e' vm' cls' _ hf hs ih =>
    obtain ⟨e1, vm1, new, h1, -, h3, -⟩ := hc w.enc f w.vm w.cls w.ins w.own hf ih w.cls
    rw [h1] at hs
    cases hs
    exact h3
  | reserve w e' vm' _ hs ih =>
    obtain ⟨e1, vm1, h1, -, h3⟩ := LawfulEnc.reserve w.enc w.vm w.cls w.ins w.own ih
    rw [h1] at hs
    cases hs
    exact h3
  | rehash w e' _ hs ih => exact LawfulEnc.same_inv _ _ _ _ _ _ ih hs
  | useVars w vm' _ hs ih => exact LawfulEnc.more _ _ _ _ _ _ ih hs

omit [Item ι] [LawfulItem ι] [Encoder E ι] [EncodeInc E VM] [LawfulEnc E ι VM] in
theorem EncodeOk.weaken {I : E → Nat → ClauseSet → List ι → List Nat → Prop}
    {f : VM → ClauseSet → Option (E × VM × ClauseSet)} {vm : VM} {cls : ClauseSet} {ins : List ι} {own : List Nat}
    {P : E → Prop} (h : EncodeOk I f vm cls ins own P) : EncodeOk I f vm cls ins own fun _ => True := fun col => by
  obtain ⟨e', vm', new, h1, h2, h3, -⟩ := h col
  exact ⟨e', vm', new, h1, h2, h3, trivial⟩

theorem ubCalls_ok [BoundUpper E VM] [EnforceUb E] [LawfulUb E ι VM] : CallsOk (ubCalls (E := E) (ι := ι) (VM := VM)) := by
  rintro e f vm cls ins own ⟨r, hr, rfl | rfl⟩ hi
  · exact (LawfulUb.encodeUb e r vm cls ins own hi hr).weaken
  · exact (LawfulUb.encodeUbChange e r vm cls ins own hi hr).weaken

theorem lbCalls_ok [BoundLower E VM] [EnforceLb E] [LawfulLb E ι VM] : CallsOk (lbCalls (E := E) (ι := ι) (VM := VM)) := by
  rintro e f vm cls ins own ⟨r, hr, rfl | rfl⟩ hi
  · exact (LawfulLb.encodeLb e r vm cls ins own hi hr).weaken
  · exact (LawfulLb.encodeLbChange e r vm cls ins own hi hr).weaken

theorem bothCalls_ok [BoundBoth E VM] [EnforceEq E] [LawfulBoth E ι VM] :
    CallsOk (bothCalls (E := E) (ι := ι) (VM := VM)) := by
  rintro e f vm cls ins own ⟨r, hr, rfl | rfl⟩ hi
  · exact (LawfulBoth.encodeBoth e r vm cls ins own hi hr).weaken
  · exact (LawfulBoth.encodeBothChange e r vm cls ins own hi hr).weaken

end
end RustSat
