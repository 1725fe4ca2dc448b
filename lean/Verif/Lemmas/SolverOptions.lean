import Verif.Spec.SolverOptions
/-
Binary search in the tables of options, for C100.
-/
namespace RustSat.SolverOptions

theorem strcmp_refl : ∀ a : List Nat, strcmp a a = .eq
  | [] => rfl
  | a :: as => by simp [strcmp, strcmp_refl as]

theorem strcmp_eq : ∀ {a b : List Nat}, strcmp a b = .eq → a = b
  | [], [], _ => rfl
  | [], _ :: _, h => nomatch h
  | _ :: _, [], h => nomatch h
  | a :: as, b :: bs, h => by
    unfold strcmp at h
    by_cases h1 : a < b
    · rw [if_pos h1] at h; cases h
    rw [if_neg h1] at h
    by_cases h2 : b < a
    · rw [if_pos h2] at h; cases h
    rw [if_neg h2] at h
    rw [show a = b by omega, strcmp_eq h]

theorem strcmp_swap : ∀ {a b : List Nat}, strcmp a b = .lt ↔ strcmp b a = .gt
  | [], [] => by simp [strcmp]
  | [], _ :: _ => by simp [strcmp]
  | _ :: _, [] => by simp [strcmp]
  | a :: as, b :: bs => by
    unfold strcmp
    by_cases h1 : a < b
    · rw [if_pos h1, if_neg (show ¬ b < a by omega), if_pos h1]; simp
    rw [if_neg h1]
    by_cases h2 : b < a
    · rw [if_pos h2, if_pos h2]; simp
    rw [if_neg h2, if_neg h2, if_neg h1]
    exact strcmp_swap

theorem strcmp_trans : ∀ {a b c : List Nat}, strcmp a b = .lt → strcmp b c = .lt → strcmp a c = .lt
  | [], [], _, h, _ => nomatch h
  | [], _ :: _, [], _, h => nomatch h
  | [], _ :: _, _ :: _, _, _ => rfl
  | _ :: _, [], _, h, _ => nomatch h
  | _ :: _, _ :: _, [], _, h => nomatch h
  | a :: as, b :: bs, c :: cs, h, h' => by
    unfold strcmp at h h' ⊢
    by_cases h1 : a < b
    · by_cases h2 : b < c
      · rw [if_pos (by omega)]
      rw [if_neg h2] at h'
      by_cases h3 : c < b
      · rw [if_pos h3] at h'; cases h'
      rw [if_pos (by omega)]
    rw [if_neg h1] at h
    by_cases h2 : b < a
    · rw [if_pos h2] at h; cases h
    rw [if_neg h2] at h
    obtain rfl : a = b := by omega
    by_cases h3 : a < c
    · rw [if_pos h3]
    rw [if_neg h3] at h' ⊢
    by_cases h4 : c < a
    · rw [if_pos h4] at h'; cases h'
    rw [if_neg h4] at h' ⊢
    exact strcmp_trans h h'

theorem strcmp_lt_ne {a b : List Nat} (h : strcmp a b = .lt) : a ≠ b := by
  rintro rfl
  rw [strcmp_refl] at h
  cases h

/-- Sortedness of neighbours, which is cheap to decide. -/
def isSorted : List Opt → Bool
  | a :: b :: t => (strcmp a.name b.name == .lt) && isSorted (b :: t)
  | _ => true

theorem sorted_of_isSorted : ∀ {t : List Opt}, isSorted t = true → Sorted t
  | [], _ => .nil
  | [_], _ => by simp [Sorted]
  | a :: b :: t, h => by
    simp only [isSorted, Bool.and_eq_true, beq_iff_eq] at h
    have hs : Sorted (b :: t) := sorted_of_isSorted h.2
    refine .cons (fun c hc => ?_) hs
    rcases List.mem_cons.1 hc with rfl | hc
    · exact h.1
    · exact strcmp_trans h.1 ((List.pairwise_cons.1 hs).1 c hc)

variable {t : List Opt} {name : List Nat}

theorem nth_eq {i : Nat} (h : i < t.length) : nth t i = t[i] := by
  simp [nth, h]

theorem Sorted.lt (h : Sorted t) {i j : Nat} (hij : i < j) (hj : j < t.length) :
    strcmp (nth t i).name (nth t j).name = .lt := by
  rw [nth_eq (by omega), nth_eq hj]
  exact List.pairwise_iff_getElem.1 h i j (by omega) hj hij

/-- The name occurs at one place only. -/
theorem Sorted.inj (h : Sorted t) {i j : Nat} (hi : i < t.length) (hj : j < t.length)
    (e : (nth t i).name = (nth t j).name) : i = j := by
  rcases Nat.lt_trichotomy i j with hij | hij | hij
  · exact absurd e (strcmp_lt_ne (h.lt hij hj))
  · exact hij
  · exact absurd e.symm (strcmp_lt_ne (h.lt hij hi))

/-- If the entry at `m` is larger than the name then so are all later ones. -/
theorem Sorted.above (h : Sorted t) {m i : Nat} (hm : strcmp name (nth t m).name = .lt) (hi : i < t.length)
    (e : (nth t i).name = name) : i < m := by
  rcases Nat.lt_trichotomy i m with hij | hij | hij
  · exact hij
  · subst hij
    exact absurd e.symm (strcmp_lt_ne hm)
  · exact absurd e.symm (strcmp_lt_ne (strcmp_trans hm (h.lt hij hi)))

theorem Sorted.below (h : Sorted t) {m i : Nat} (hm : strcmp name (nth t m).name = .gt) (hmt : m < t.length)
    (e : (nth t i).name = name) : m < i := by
  have hm := strcmp_swap.2 hm
  rcases Nat.lt_trichotomy i m with hij | hij | hij
  · exact absurd e (strcmp_lt_ne (strcmp_trans (h.lt hij hmt) hm))
  · subst hij
    exact absurd e (strcmp_lt_ne hm)
  · exact hij

theorem kissatLoop_some : ∀ (fuel l r : Nat) {i : Nat}, l < t.length → r ≤ t.length → kissatLoop t name fuel l r = some i →
    i < t.length ∧ (nth t i).name = name
  | 0, l, r, i, hl, hr, e => by
    unfold kissatLoop at e
    by_cases h : strcmp (nth t l).name name = .eq
    · rw [if_pos h] at e
      injection e with e
      exact e ▸ ⟨hl, strcmp_eq h⟩
    · rw [if_neg h] at e; cases e
  | fuel + 1, l, r, i, hl, hr, e => by
    unfold kissatLoop at e
    by_cases hlr : l + 1 < r
    · rw [if_pos hlr] at e
      have hm : l + (r - l) / 2 < t.length := by omega
      cases h : strcmp name (nth t (l + (r - l) / 2)).name with
      | lt =>
        rw [h] at e
        exact kissatLoop_some fuel _ _ hl (by omega) e
      | gt =>
        rw [h] at e
        exact kissatLoop_some fuel _ _ hm hr e
      | eq =>
        rw [h] at e
        injection e with e
        exact e ▸ ⟨hm, (strcmp_eq h).symm⟩
    · rw [if_neg hlr] at e
      by_cases h : strcmp (nth t l).name name = .eq
      · rw [if_pos h] at e
        injection e with e
        exact e ▸ ⟨hl, strcmp_eq h⟩
      · rw [if_neg h] at e; cases e

theorem kissatLoop_complete (hs : Sorted t) {i : Nat} (hi : i < t.length) (e : (nth t i).name = name) :
    ∀ fuel l r : Nat, r ≤ l + fuel + 1 → l ≤ i → i < r → r ≤ t.length → kissatLoop t name fuel l r = some i
  | 0, l, r, hf, h1, h2, hr => by
    obtain rfl : l = i := by omega
    unfold kissatLoop
    rw [e, if_pos (strcmp_refl name)]
  | fuel + 1, l, r, hf, h1, h2, hr => by
    unfold kissatLoop
    by_cases hlr : l + 1 < r
    · rw [if_pos hlr]
      cases h : strcmp name (nth t (l + (r - l) / 2)).name with
      | lt => exact kissatLoop_complete hs hi e fuel _ _ (by omega) h1 (hs.above h hi e) (by omega)
      | gt => exact kissatLoop_complete hs hi e fuel _ _ (by omega) (Nat.le_of_lt (hs.below h (by omega) e)) h2 hr
      | eq =>
        show some _ = some _
        rw [hs.inj (by omega) hi ((strcmp_eq h).symm.trans e.symm)]
    · rw [if_neg hlr]
      obtain rfl : l = i := by omega
      rw [e, if_pos (strcmp_refl name)]

theorem cadicalLoop_some : ∀ (fuel l r : Nat) {i : Nat}, r ≤ t.length → cadicalLoop t name fuel l r = some i →
    i < t.length ∧ (nth t i).name = name
  | 0, l, r, i, hr, e => nomatch e
  | fuel + 1, l, r, i, hr, e => by
    unfold cadicalLoop at e
    by_cases hlr : l < r
    · rw [if_pos hlr] at e
      have hm : l + (r - l) / 2 < t.length := by omega
      cases h : strcmp name (nth t (l + (r - l) / 2)).name with
      | lt =>
        rw [h] at e
        exact cadicalLoop_some fuel _ _ (by omega) e
      | gt =>
        rw [h] at e
        exact cadicalLoop_some fuel _ _ hr e
      | eq =>
        rw [h] at e
        injection e with e
        exact e ▸ ⟨hm, (strcmp_eq h).symm⟩
    · rw [if_neg hlr] at e; cases e

theorem cadicalLoop_complete (hs : Sorted t) {i : Nat} (hi : i < t.length) (e : (nth t i).name = name) :
    ∀ fuel l r : Nat, r ≤ l + fuel → l ≤ i → i < r → r ≤ t.length → cadicalLoop t name fuel l r = some i
  | 0, l, r, hf, h1, h2, hr => by omega
  | fuel + 1, l, r, hf, h1, h2, hr => by
    unfold cadicalLoop
    rw [if_pos (by omega)]
    cases h : strcmp name (nth t (l + (r - l) / 2)).name with
    | lt => exact cadicalLoop_complete hs hi e fuel _ _ (by omega) h1 (hs.above h hi e) (by omega)
    | gt => exact cadicalLoop_complete hs hi e fuel _ _ (by omega) (hs.below h (by omega) e) h2 hr
    | eq =>
      show some _ = some _
      rw [hs.inj (by omega) hi ((strcmp_eq h).symm.trans e.symm)]

theorem Table.pos (h : Table t) : 0 < t.length := List.length_pos_iff.2 h.nonempty

theorem Table.kissat_iff (h : Table t) {i : Nat} : kissatHas t name = some i ↔ ∃ o, t[i]? = some o ∧ o.name = name := by
  constructor
  · intro e
    obtain ⟨h1, h2⟩ := kissatLoop_some _ _ _ h.pos (Nat.le_refl _) e
    exact ⟨t[i], List.getElem?_eq_getElem h1, by rwa [nth_eq h1] at h2⟩
  · rintro ⟨o, e1, e2⟩
    obtain ⟨h1, rfl⟩ := List.getElem?_eq_some_iff.1 e1
    exact kissatLoop_complete h.sorted h1 (by rwa [nth_eq h1]) _ _ _ (by omega) (Nat.zero_le _) h1 (Nat.le_refl _)

theorem Table.cadical_iff (h : Table t) {i : Nat} : cadicalHas t name = some i ↔ ∃ o, t[i]? = some o ∧ o.name = name := by
  constructor
  · intro e
    obtain ⟨h1, h2⟩ := cadicalLoop_some _ _ _ (Nat.le_refl _) e
    exact ⟨t[i], List.getElem?_eq_getElem h1, by rwa [nth_eq h1] at h2⟩
  · rintro ⟨o, e1, e2⟩
    obtain ⟨h1, rfl⟩ := List.getElem?_eq_some_iff.1 e1
    exact cadicalLoop_complete h.sorted h1 (by rwa [nth_eq h1]) _ _ _ (by omega) (Nat.zero_le _) h1 (Nat.le_refl _)

theorem Table.same (h : Table t) : cadicalHas t name = kissatHas t name := by
  cases e : kissatHas t name with
  | some i => exact h.cadical_iff.2 (h.kissat_iff.1 e)
  | none =>
    cases e' : cadicalHas t name with
    | none => rfl
    | some i =>
      rw [h.kissat_iff.2 (h.cadical_iff.1 e')] at e
      cases e

theorem Table.known (h : Table t) : Known t name ↔ ∃ i, kissatHas t name = some i := by
  constructor
  · rintro ⟨o, ho, e⟩
    obtain ⟨i, hi, rfl⟩ := List.mem_iff_getElem.1 ho
    exact ⟨i, h.kissat_iff.2 ⟨_, List.getElem?_eq_getElem hi, e⟩⟩
  · rintro ⟨i, e⟩
    obtain ⟨o, h1, h2⟩ := h.kissat_iff.1 e
    exact ⟨o, List.mem_of_getElem? h1, h2⟩

/-- Different names are found at different places. -/
theorem Table.has_inj (h : Table t) {n1 n2 : List Nat} {i : Nat} (h1 : kissatHas t n1 = some i) (h2 : kissatHas t n2 = some i) :
    n1 = n2 := by
  obtain ⟨o, e1, rfl⟩ := h.kissat_iff.1 h1
  obtain ⟨o', e2, rfl⟩ := h.kissat_iff.1 h2
  rw [e1] at e2
  injection e2 with e2
  rw [e2]

theorem Opt.fit_range {o : Opt} {old new : Int} (ho : o.low ≤ old ∧ old ≤ o.high) (hlh : o.low ≤ o.high) :
    o.low ≤ o.fit old new ∧ o.fit old new ≤ o.high := by
  unfold Opt.fit
  by_cases h : new = old
  · rw [if_pos h]; exact ho
  rw [if_neg h]
  simp only
  split <;> split <;> omega

theorem Opt.fit_eq {o : Opt} {old new : Int} (ho : o.low ≤ old ∧ old ≤ o.high) :
    o.fit old new = max o.low (min o.high new) := by
  unfold Opt.fit
  by_cases h : new = old
  · rw [if_pos h]; omega
  rw [if_neg h]
  simp only
  split <;> split <;> omega

theorem InRange.length {vals : List Int} (h : InRange t vals) : vals.length = t.length := h.1

theorem InRange.get {vals : List Int} (h : InRange t vals) {i : Nat} {o : Opt} (e : t[i]? = some o) :
    o.low ≤ vals.getD i 0 ∧ vals.getD i 0 ≤ o.high := by
  obtain ⟨hi, rfl⟩ := List.getElem?_eq_some_iff.1 e
  have hv : i < vals.length := h.length ▸ hi
  have := h.2 (t[i], vals[i]) (List.mem_iff_getElem.2 ⟨i, by simp; omega, by simp⟩)
  simpa [hv] using this

theorem InRange.of {vals : List Int} (hl : vals.length = t.length)
    (h : ∀ i o, t[i]? = some o → o.low ≤ vals.getD i 0 ∧ vals.getD i 0 ≤ o.high) : InRange t vals := by
  refine ⟨hl, fun x hx => ?_⟩
  obtain ⟨i, hi, rfl⟩ := List.mem_iff_getElem.1 hx
  have h1 : i < t.length := by simp at hi; omega
  have h2 : i < vals.length := by omega
  have := h i t[i] (List.getElem?_eq_getElem h1)
  simpa [h2] using this

theorem getD_set {vals : List Int} {i j : Nat} {v : Int} (hi : i < vals.length) :
    (vals.set i v).getD j 0 = if i = j then v else vals.getD j 0 := by
  by_cases h : i = j
  · subst h
    simp [hi]
  · simp [h, List.getElem?_set]

theorem InRange.set {vals : List Int} (h : InRange t vals) {i : Nat} {o : Opt} (e : t[i]? = some o) (v : Int) :
    InRange t (vals.set i (o.fit (vals.getD i 0) v)) := by
  have hi : i < vals.length := by
    rw [h.length]
    exact (List.getElem?_eq_some_iff.1 e).1
  have hr := h.get e
  refine InRange.of (by simpa using h.length) fun j o' e' => ?_
  rw [getD_set hi]
  by_cases hij : i = j
  · subst hij
    rw [if_pos rfl]
    rw [e] at e'
    injection e' with e'
    exact e' ▸ Opt.fit_range hr (by omega)
  · rw [if_neg hij]
    exact h.get e'

theorem nth_of {i : Nat} {o : Opt} (e : t[i]? = some o) : nth t i = o := by
  unfold nth
  rw [List.getD_eq_getElem?_getD, e]
  rfl

theorem InRange.kissatSet {vals : List Int} (ht : Table t) (h : InRange t vals) (name : List Nat) (v : Int) :
    InRange t (kissatSet t vals name v).2 := by
  unfold SolverOptions.kissatSet
  cases e : kissatHas t name with
  | none => exact h
  | some i =>
    obtain ⟨o, e1, _⟩ := ht.kissat_iff.1 e
    show InRange t (vals.set i ((nth t i).fit (vals.getD i 0) v))
    rw [nth_of e1]
    exact h.set e1 v

theorem cadicalSet_eq (ht : Table t) (vals : List Int) (name : List Nat) (v : Int) :
    (cadicalSet t vals name v).2 = (kissatSet t vals name v).2 ∧
    ((cadicalSet t vals name v).1 = true ↔ Known t name) := by
  unfold cadicalSet SolverOptions.kissatSet
  rw [ht.same, ht.known]
  cases e : kissatHas t name with
  | none => exact ⟨rfl, by simp⟩
  | some i => exact ⟨rfl, by simp⟩

theorem cadicalGet_eq (ht : Table t) (vals : List Int) (name : List Nat) : cadicalGet t vals name = kissatGet t vals name := by
  unfold cadicalGet kissatGet
  rw [ht.same]

/-- What `kissatSet` does to all options. -/
theorem kissatGet_set (ht : Table t) {vals : List Int} (h : InRange t vals) {o : Opt} (ho : o ∈ t) (v : Int) (n : List Nat) :
    kissatGet t (kissatSet t vals o.name v).2 n = if n = o.name then max o.low (min o.high v) else kissatGet t vals n := by
  obtain ⟨i, e⟩ := ht.known.1 ⟨o, ho, rfl⟩
  obtain ⟨o', e1, e2⟩ := ht.kissat_iff.1 e
  obtain rfl : o' = o := by
    obtain ⟨j, hj, rfl⟩ := List.mem_iff_getElem.1 ho
    have ej := ht.kissat_iff.2 ⟨_, List.getElem?_eq_getElem hj, rfl⟩
    rw [e] at ej
    injection ej with ej
    subst ej
    rw [List.getElem?_eq_getElem hj] at e1
    injection e1 with e1
    exact e1.symm
  have hi : i < vals.length := by
    rw [h.length]
    exact (List.getElem?_eq_some_iff.1 e1).1
  unfold kissatGet SolverOptions.kissatSet
  rw [e]
  simp only [nth_of e1]
  cases en : kissatHas t n with
  | none =>
    have hn : n ≠ o'.name := by
      rintro rfl
      rw [e] at en
      cases en
    rw [if_neg hn]
  | some j =>
    simp only
    rw [getD_set hi]
    by_cases hij : i = j
    · subst hij
      rw [if_pos rfl, if_pos (ht.has_inj en e), Opt.fit_eq (h.get e1)]
    · rw [if_neg hij, if_neg]
      rintro rfl
      rw [e] at en
      injection en with en
      exact hij en

theorem kissatSet_unknown (ht : Table t) (vals : List Int) {n : List Nat} (hn : ¬ Known t n) (v : Int) :
    kissatSet t vals n v = (0, vals) ∧ kissatGet t vals n = 0 := by
  have : kissatHas t n = none := by
    cases e : kissatHas t n with
    | none => rfl
    | some i => exact absurd (ht.known.2 ⟨i, e⟩) hn
  unfold SolverOptions.kissatSet kissatGet
  rw [this]
  exact ⟨rfl, rfl⟩

theorem kissatSet_fst (vals : List Int) (n : List Nat) (v : Int) : (kissatSet t vals n v).1 = kissatGet t vals n := by
  unfold SolverOptions.kissatSet kissatGet
  cases kissatHas t n <;> rfl

theorem InRange.kissatSetAll (ht : Table t) : ∀ (s : List (List Nat × Int)) {vals : List Int}, InRange t vals →
    InRange t (kissatSetAll t vals s)
  | [], _, h => h
  | x :: s, _, h => InRange.kissatSetAll ht s (h.kissatSet ht x.1 x.2)

theorem InRange.cadicalSetAll (ht : Table t) : ∀ (s : List (List Nat × Int)) {vals : List Int}, InRange t vals →
    InRange t (cadicalSetAll t vals s)
  | [], _, h => h
  | x :: s, vals, h => by
    have := h.kissatSet ht x.1 x.2
    rw [← (cadicalSet_eq ht vals x.1 x.2).1] at this
    exact InRange.cadicalSetAll ht s this

theorem InRange.zip {vals : List Int} (h : InRange t vals) (f : Opt → Int → Int)
    (hf : ∀ o ∈ t, ∀ v, o.low ≤ v ∧ v ≤ o.high → o.low ≤ f o v ∧ f o v ≤ o.high) : InRange t (List.zipWith f t vals) := by
  refine InRange.of (by simp [h.length]) fun i o e => ?_
  have hr := h.get e
  obtain ⟨hi, rfl⟩ := List.getElem?_eq_some_iff.1 e
  have hv : i < vals.length := h.length ▸ hi
  have := hf t[i] (List.getElem_mem hi) _ hr
  simpa [List.getElem?_zipWith, hi, hv] using this

theorem InRange.initial (ht : Table t) : InRange t (initial t) := by
  refine InRange.of (by simp [SolverOptions.initial]) fun i o e => ?_
  obtain ⟨hi, rfl⟩ := List.getElem?_eq_some_iff.1 e
  have := ht.defaults t[i] (List.getElem_mem hi)
  simpa [SolverOptions.initial, hi] using this

theorem KissatVals.inRange (ht : Table t) {vals : List Int} (h : KissatVals t vals) : InRange t vals := by
  induction h with
  | new => exact .initial ht
  | set name v _ ih =>
    unfold kissatSetOption
    split
    · exact ih
    · exact ih.kissatSet ht name v
  | configure s c _ ih =>
    unfold kissatSetConfiguration
    split
    · exact ih
    · exact ih.kissatSetAll ht _

theorem CadicalVals.inRange (ht : Table t) {vals : List Int} (h : CadicalVals t vals) : InRange t vals := by
  induction h with
  | new h => exact h
  | @set vals name v _ ih =>
    unfold cadicalSetOption
    split
    · exact ih
    · exact (cadicalSet_eq ht vals name v).1 ▸ ih.kissatSet ht name v
  | configure s c _ ih =>
    unfold cadicalSetConfiguration
    split
    · cases c with
      | default =>
        exact ih.zip _ fun o ho v hv => by
          split
          · exact ht.defaults o ho
          · exact hv
      | plain =>
        exact ih.zip _ fun o ho v hv => by
          split
          next hp => exact ht.off o ho hp
          · exact hv
      | sat => exact ih.cadicalSetAll ht _
      | unsat => exact ih.cadicalSetAll ht _
    · exact ih

theorem kissatGetOption_of {vals : List Int} {n : List Nat} (h : 0 ∉ n) :
    kissatGetOption t vals n = .ok (kissatGet t vals n) := by
  unfold kissatGetOption
  rw [if_neg (by simpa using h)]

theorem cadicalGetOption_of (ht : Table t) {vals : List Int} {n : List Nat} (h : 0 ∉ n) :
    cadicalGetOption t vals n = .ok (kissatGet t vals n) := by
  unfold cadicalGetOption
  rw [if_neg (by simpa using h), cadicalGet_eq ht]

/-- What a sequence of settings of different options in their ranges does. -/
theorem kissatSetAll_get (ht : Table t) (n : List Nat) : ∀ (s : List (List Nat × Int)) {vals : List Int}, InRange t vals →
    (∀ x ∈ s, ∃ o ∈ t, o.name = x.1 ∧ o.low ≤ x.2 ∧ x.2 ≤ o.high) → (s.map Prod.fst).Nodup →
    (∀ v, (n, v) ∈ s → kissatGet t (kissatSetAll t vals s) n = v) ∧
    (n ∉ s.map Prod.fst → kissatGet t (kissatSetAll t vals s) n = kissatGet t vals n)
  | [], vals, _, _, _ => ⟨nofun, fun _ => rfl⟩
  | x :: s, vals, h, hs, hd => by
    obtain ⟨o, ho, e, hl, hh⟩ := hs x List.mem_cons_self
    have hd' := List.nodup_cons.1 (show (x.1 :: s.map Prod.fst).Nodup from hd)
    obtain ⟨h1, h2⟩ := kissatSetAll_get ht n s (h.kissatSet ht x.1 x.2) (fun y hy => hs y (List.mem_cons_of_mem _ hy)) hd'.2
    have hg := kissatGet_set ht h ho x.2 n
    rw [e] at hg
    refine ⟨fun v hv => ?_, fun hn => ?_⟩
    · rcases List.mem_cons.1 hv with hv | hv
      · subst hv
        refine (h2 hd'.1).trans ?_
        rw [hg, if_pos rfl]
        show max o.low (min o.high v) = v
        have hl : o.low ≤ v := hl
        have hh : v ≤ o.high := hh
        omega
      · exact h1 v hv
    · refine (h2 fun hm => hn (List.mem_cons_of_mem _ hm)).trans ?_
      rw [hg, if_neg]
      rintro rfl
      exact hn List.mem_cons_self

theorem cadicalSetAll_eq (ht : Table t) : ∀ (s : List (List Nat × Int)) (vals : List Int),
    cadicalSetAll t vals s = kissatSetAll t vals s
  | [], _ => rfl
  | x :: s, vals => by
    show cadicalSetAll t (cadicalSet t vals x.1 x.2).2 s = kissatSetAll t (kissatSet t vals x.1 x.2).2 s
    rw [(cadicalSet_eq ht vals x.1 x.2).1]
    exact cadicalSetAll_eq ht s _

theorem kissatGet_zip (ht : Table t) {vals : List Int} (h : InRange t vals) (f : Opt → Int → Int) {o : Opt} (ho : o ∈ t) :
    kissatGet t (List.zipWith f t vals) o.name = f o (kissatGet t vals o.name) := by
  obtain ⟨j, hj, rfl⟩ := List.mem_iff_getElem.1 ho
  have ej := ht.kissat_iff.2 ⟨_, List.getElem?_eq_getElem hj, rfl⟩
  have hv : j < vals.length := h.length ▸ hj
  unfold kissatGet
  rw [ej]
  simp [List.getElem?_zipWith, hj, hv]

/-- The names and values of a configuration fit a table. -/
def fits (t : List Opt) (s : List (List Nat × Int)) : Bool :=
  s.all fun x => t.any fun o => o.name == x.1 && decide (o.low ≤ x.2) && decide (x.2 ≤ o.high)

theorem of_fits {s : List (List Nat × Int)} (h : fits t s = true) :
    ∀ x ∈ s, ∃ o ∈ t, o.name = x.1 ∧ o.low ≤ x.2 ∧ x.2 ≤ o.high := by
  intro x hx
  obtain ⟨o, ho, e⟩ := List.any_eq_true.1 (List.all_eq_true.1 h x hx)
  simp only [Bool.and_eq_true, beq_iff_eq, decide_eq_true_eq] at e
  exact ⟨o, ho, e.1.1, e.1.2, e.2⟩

end RustSat.SolverOptions
