import Verif.Spec.Gbmo
import Verif.Lemmas.Objective
import Mathlib.Data.List.Sublists
import Mathlib.Data.List.Perm.Subperm
/-
Lemmas about splitting objectives: the thorough check, the loops that find the splits, and the slices.
-/
namespace RustSat
namespace Gbmo
open GbmoSpec

/-! ### Sets of combinations -/

/-- The elements are either equal or differ by more than `L`. -/
def Gaps (L : Nat) (T : Nat → Prop) : Prop := ∀ x y, T x → T y → x < y → x + L < y

theorem mem_bInsert {x y : Nat} {S : List Nat} : y ∈ bInsert x S ↔ y = x ∨ y ∈ S := by
  induction S with
  | nil => simp [bInsert]
  | cons z S ih =>
    rw [bInsert]
    split
    · simp
    · rw [List.mem_cons, ih, List.mem_cons]
      constructor
      · rintro (h | h | h)
        · exact .inr (.inl h)
        · exact .inl h
        · exact .inr (.inr h)
      · rintro (h | h | h)
        · exact .inr (.inl h)
        · exact .inl h
        · exact .inr (.inr h)

theorem length_bInsert (x : Nat) (S : List Nat) : (bInsert x S).length = S.length + 1 := by
  induction S with
  | nil => rfl
  | cons z S ih =>
    rw [bInsert]
    split
    · rfl
    · rw [List.length_cons, ih]; rfl

theorem sorted_bInsert {x : Nat} {S : List Nat} (h : S.Pairwise (· < ·)) (hx : x ∉ S) : (bInsert x S).Pairwise (· < ·) := by
  induction S with
  | nil => simp [bInsert]
  | cons z S ih =>
    rw [List.pairwise_cons] at h
    rw [List.mem_cons, not_or] at hx
    rw [bInsert]
    split
    · rename_i hlt
      refine List.pairwise_cons.2 ⟨fun y hy => ?_, List.pairwise_cons.2 h⟩
      rcases List.mem_cons.1 hy with rfl | hy
      · exact hlt
      · exact Nat.lt_trans hlt (h.1 y hy)
    · refine List.pairwise_cons.2 ⟨fun y hy => ?_, ih h.2 hx.2⟩
      rcases mem_bInsert.1 hy with rfl | hy
      · have := hx.1; omega
      · exact h.1 y hy

theorem getLast?_max {S : List Nat} (h : S.Pairwise (· < ·)) {x : Nat} (hx : S.getLast? = some x) : ∀ y ∈ S, y ≤ x := by
  induction S with
  | nil => cases hx
  | cons z S ih =>
    rw [List.pairwise_cons] at h
    cases S with
    | nil =>
      have hz : z = x := by simpa using hx
      intro y hy
      rw [List.mem_singleton] at hy
      omega
    | cons w S =>
      rw [List.getLast?_cons_cons] at hx
      intro y hy
      rcases List.mem_cons.1 hy with rfl | hy
      · have h1 := h.1 w (List.mem_cons_self ..)
        have h2 := ih h.2 hx w (List.mem_cons_self ..)
        omega
      · exact ih h.2 hx y hy

theorem head?_min {S : List Nat} (h : S.Pairwise (· < ·)) {x : Nat} (hx : S.head? = some x) : ∀ y ∈ S, x ≤ y := by
  cases S with
  | nil => cases hx
  | cons z S =>
    cases hx
    intro y hy
    rcases List.mem_cons.1 hy with rfl | hy
    · exact Nat.le_refl _
    · exact Nat.le_of_lt ((List.pairwise_cons.1 h).1 y hy)

/-- What `checkHigher` does. -/
theorem checkHigher_spec (L maxCombs hi : Nat) {S : List Nat} (hs : S.Pairwise (· < ·)) (c : Nat) (hhi : c + 1 ≤ hi) :
    (checkHigher L maxCombs hi S c = .go S ∧ ∀ y ∈ S, c < y → y < hi → c + L < y) ∨
    (checkHigher L maxCombs hi S c = .fail ∧ ((∃ y ∈ S, c < y ∧ y ≤ c + L) ∨ maxCombs < S.length)) := by
  have hf : (S.filter fun x => decide (c + 1 ≤ x ∧ x < hi)).Pairwise (· < ·) := hs.sublist List.filter_sublist
  rw [checkHigher, if_neg (by omega)]
  cases h : (S.filter fun x => decide (c + 1 ≤ x ∧ x < hi)).head? with
  | none =>
    have hn : ∀ y ∈ S, c < y → y < hi → c + L < y := by
      intro y hy h1 h2
      have : y ∈ S.filter fun x => decide (c + 1 ≤ x ∧ x < hi) := by
        rw [List.mem_filter]; exact ⟨hy, by simp; omega⟩
      rw [List.head?_eq_none_iff.1 h] at this
      cases this
    simp only [checkSize]
    by_cases hm : S.length > maxCombs
    · rw [if_pos hm]; exact .inr ⟨rfl, .inr hm⟩
    · rw [if_neg hm]; exact .inl ⟨rfl, hn⟩
  | some x =>
    have hx : x ∈ S.filter fun x => decide (c + 1 ≤ x ∧ x < hi) := List.mem_of_head? h
    rw [List.mem_filter] at hx
    have hx2 : c + 1 ≤ x ∧ x < hi := by simpa using hx.2
    have hmin := head?_min hf h
    simp only
    by_cases h1 : x - c ≤ L
    · rw [if_pos h1]
      exact .inr ⟨rfl, .inl ⟨x, hx.1, by omega, by omega⟩⟩
    · rw [if_neg h1, checkSize]
      have hn : ∀ y ∈ S, c < y → y < hi → c + L < y := by
        intro y hy h1 h2
        have := hmin y (by rw [List.mem_filter]; exact ⟨hy, by simp; omega⟩)
        omega
      by_cases hm : S.length > maxCombs
      · rw [if_pos hm]; exact .inr ⟨rfl, .inr hm⟩
      · rw [if_neg hm]; exact .inl ⟨rfl, hn⟩

/-- The outcome of adding `c` to the set `S`. -/
def Added (L maxCombs : Nat) (S : List Nat) (c : Nat) (r : Check) : Prop :=
  (∃ S', r = .go S' ∧ S'.Pairwise (· < ·) ∧ Gaps L (· ∈ S') ∧ ∀ y, y ∈ S' ↔ y = c ∨ y ∈ S) ∨
  (r = .fail ∧ (¬ Gaps L (fun y => y = c ∨ y ∈ S) ∨ (c ∉ S ∧ maxCombs < S.length + 1)))

theorem higher_added (L maxCombs hi : Nat) {S : List Nat} (hs : S.Pairwise (· < ·)) (hg : Gaps L (· ∈ S)) {c : Nat} (hc : c ∉ S)
    (hlow : ∀ y ∈ S, y < c → y + L < c) (hhi : c + 1 ≤ hi) (hend : ∀ y ∈ S, hi ≤ y → c + L < y) :
    Added L maxCombs S c (checkHigher L maxCombs hi (bInsert c S) c) := by
  rcases checkHigher_spec L maxCombs hi (sorted_bInsert hs hc) c hhi with ⟨e, h⟩ | ⟨e, h⟩
  · refine .inl ⟨_, e, sorted_bInsert hs hc, fun x y hx hy hxy => ?_, fun y => mem_bInsert⟩
    rcases mem_bInsert.1 hx with rfl | hx'
    · rcases mem_bInsert.1 hy with rfl | hy'
      · omega
      · rcases Nat.lt_or_ge y hi with h1 | h1
        · exact h y hy hxy h1
        · exact hend y hy' h1
    · rcases mem_bInsert.1 hy with rfl | hy'
      · exact hlow x hx' hxy
      · exact hg x y hx' hy' hxy
  · refine .inr ⟨e, ?_⟩
    rcases h with ⟨y, hy, h1, h2⟩ | h
    · refine .inl fun hG => ?_
      have := hG c y (.inl rfl) (mem_bInsert.1 hy) h1
      omega
    · rw [length_bInsert] at h
      exact .inr ⟨hc, h⟩

theorem lower_max {S : List Nat} (hs : S.Pairwise (· < ·)) {c x : Nat} (hc : c ∉ S)
    (h : ((bInsert c S).filter fun x => decide (x < c)).getLast? = some x) : x ∈ S ∧ x < c ∧ ∀ y ∈ S, y < c → y ≤ x := by
  have hf : ((bInsert c S).filter fun x => decide (x < c)).Pairwise (· < ·) := (sorted_bInsert hs hc).sublist List.filter_sublist
  have hm := List.mem_of_getLast? h
  rw [List.mem_filter] at hm
  have hx : x < c := by simpa using hm.2
  refine ⟨?_, hx, fun y hy hyc => getLast?_max hf h y ?_⟩
  · rcases mem_bInsert.1 hm.1 with h' | h'
    · omega
    · exact h'
  · rw [List.mem_filter]; exact ⟨mem_bInsert.2 (.inr hy), by simpa using hyc⟩

theorem le_sum {x : Nat} {l : List Nat} (h : x ∈ l) : x ≤ l.sum := by
  induction l with
  | nil => cases h
  | cons y l ih =>
    rw [List.sum_cons]
    rcases List.mem_cons.1 h with rfl | h
    · omega
    · have := ih h; omega

theorem added_known {L maxCombs : Nat} {S : List Nat} (hs : S.Pairwise (· < ·)) (hg : Gaps L (· ∈ S)) {c : Nat} (hc : c ∈ S) :
    Added L maxCombs S c (.go S) :=
  .inl ⟨S, rfl, hs, hg, fun _ => ⟨.inr, fun h => h.elim (fun e => e ▸ hc) id⟩⟩

theorem addComb_spec (L maxCombs rs : Nat) {S : List Nat} (hs : S.Pairwise (· < ·)) (hg : Gaps L (· ∈ S)) {c : Nat}
    (hlt : ∃ x ∈ S, x < c) (hS : ∀ y ∈ S, y ≤ rs) (hc : c ≤ rs) : Added L maxCombs S c (addComb L maxCombs rs S c) := by
  rw [addComb]
  by_cases h : c ∈ S
  · rw [if_pos h]; exact added_known hs hg h
  · rw [if_neg h]
    simp only
    cases hl : ((bInsert c S).filter fun x => decide (x < c)).getLast? with
    | none =>
      exfalso
      obtain ⟨x, hx, hxc⟩ := hlt
      have : x ∈ (bInsert c S).filter fun x => decide (x < c) := by
        rw [List.mem_filter]; exact ⟨mem_bInsert.2 (.inr hx), by simpa using hxc⟩
      rw [List.getLast?_eq_none_iff.1 hl] at this
      cases this
    | some x =>
      obtain ⟨h1, h2, h3⟩ := lower_max hs h hl
      simp only
      by_cases hx : c - x ≤ L
      · rw [if_pos hx]
        refine .inr ⟨rfl, .inl fun hG => ?_⟩
        have := hG x c (.inr h1) (.inl rfl) h2
        omega
      · rw [if_neg hx]
        refine higher_added L maxCombs (rs + 1) hs hg h (fun y hy hyc => ?_) (by omega) fun y hy hh => ?_
        · have := h3 y hy hyc; omega
        · have := hS y hy; omega

theorem addWeight_spec (L maxCombs rs : Nat) {S : List Nat} (hs : S.Pairwise (· < ·)) (hg : Gaps L (· ∈ S)) {c : Nat}
    (hc : c + L < rs) : Added L maxCombs S c (addWeight L maxCombs rs S c) := by
  rw [addWeight]
  by_cases h : c ∈ S
  · rw [if_pos h]; exact added_known hs hg h
  · rw [if_neg h]
    simp only
    cases hl : ((bInsert c S).filter fun x => decide (x < c)).getLast? with
    | none =>
      refine higher_added L maxCombs rs hs hg h (fun y hy hyc => ?_) (by omega) fun y hy hh => by omega
      have : y ∈ (bInsert c S).filter fun x => decide (x < c) := by
        rw [List.mem_filter]; exact ⟨mem_bInsert.2 (.inr hy), by simpa using hyc⟩
      rw [List.getLast?_eq_none_iff.1 hl] at this
      cases this
    | some x =>
      obtain ⟨h1, h2, h3⟩ := lower_max hs h hl
      simp only
      by_cases hx : c - x ≤ L
      · rw [if_pos hx]
        refine .inr ⟨rfl, .inl fun hG => ?_⟩
        have := hG x c (.inr h1) (.inl rfl) h2
        omega
      · rw [if_neg hx]
        refine higher_added L maxCombs rs hs hg h (fun y hy hyc => ?_) (by omega) fun y hy hh => by omega
        have := h3 y hy hyc; omega

/-! ### The loops of the thorough check -/

/-- `x` is the weight of a non-empty part of `ws`. -/
def PartSum (ws : List Nat) (x : Nat) : Prop := ∃ s : List Nat, s.Sublist ws ∧ s ≠ [] ∧ s.sum = x

theorem PartSum.mono {ws vs : List Nat} (h : ws.Sublist vs) {x : Nat} : PartSum ws x → PartSum vs x :=
  fun ⟨s, h1, h2, h3⟩ => ⟨s, h1.trans h, h2, h3⟩

theorem sum_le_of_sublist {s t : List Nat} (h : s.Sublist t) : s.sum ≤ t.sum := by
  induction h with
  | slnil => exact Nat.le_refl _
  | cons a h ih => rw [List.sum_cons]; omega
  | cons_cons a h ih => rw [List.sum_cons, List.sum_cons]; omega

theorem PartSum.le {ws : List Nat} {x : Nat} : PartSum ws x → x ≤ ws.sum := fun ⟨_, h1, _, h3⟩ => h3 ▸ sum_le_of_sublist h1

theorem partSum_snoc {ws : List Nat} {w x : Nat} :
    PartSum (ws ++ [w]) x ↔ PartSum ws x ∨ x = w ∨ ∃ k, PartSum ws k ∧ x = k + w := by
  constructor
  · rintro ⟨s, h1, h2, rfl⟩
    obtain ⟨s1, s2, rfl, h3, h4⟩ := List.sublist_append_iff.1 h1
    rcases List.sublist_singleton.1 h4 with rfl | rfl
    · rw [List.append_nil] at h2 ⊢
      exact .inl ⟨s1, h3, h2, rfl⟩
    · by_cases he : s1 = []
      · subst he; exact .inr (.inl (by simp))
      · exact .inr (.inr ⟨s1.sum, ⟨s1, h3, he, rfl⟩, by simp⟩)
  · rintro (h | rfl | ⟨k, ⟨s, h1, h2, rfl⟩, rfl⟩)
    · exact h.mono (List.sublist_append_left ..)
    · exact ⟨[x], List.sublist_append_right .., by simp, by simp⟩
    · exact ⟨s ++ [w], h1.append (List.Sublist.refl _), by simp, by simp⟩

theorem partSums_length {ws S : List Nat} (hs : S.Pairwise (· < ·)) (h : ∀ y ∈ S, PartSum ws y) : S.length ≤ 2 ^ ws.length := by
  have hn : S.Nodup := hs.imp fun h => Nat.ne_of_lt h
  have hsub : S ⊆ ws.sublists.map List.sum := by
    intro y hy
    obtain ⟨s, h1, _, h3⟩ := h y hy
    exact List.mem_map.2 ⟨s, List.mem_sublists.2 h1, h3⟩
  have := (hn.subperm hsub).length_le
  rwa [List.length_map, List.length_sublists] at this

/-- The check cannot pass, or has too little room. -/
def Bad (L maxCombs : Nat) (ws : List Nat) : Prop := ¬ (Gaps L (PartSum ws) ∧ 2 ^ ws.length ≤ maxCombs)

theorem bad_of_added {L maxCombs : Nat} {ws S : List Nat} {c : Nat} (hs : S.Pairwise (· < ·)) (hS : ∀ y ∈ S, PartSum ws y)
    (hc : PartSum ws c) (h : ¬ Gaps L (fun y => y = c ∨ y ∈ S) ∨ (c ∉ S ∧ maxCombs < S.length + 1)) : Bad L maxCombs ws := by
  rintro ⟨h1, h2⟩
  rcases h with h | ⟨h3, h4⟩
  · exact h fun x y hx hy => h1 x y (hx.elim (fun e => e ▸ hc) (hS x)) (hy.elim (fun e => e ▸ hc) (hS y))
  · have := partSums_length (sorted_bInsert hs h3) (ws := ws) fun y hy =>
      (mem_bInsert.1 hy).elim (fun e => e ▸ hc) (hS y)
    rw [length_bInsert] at this
    omega

theorem combLoop_spec (L maxCombs w : Nat) (hw : 0 < w) (ws : List Nat) : ∀ (known S : List Nat), S.Pairwise (· < ·) →
    Gaps L (· ∈ S) → (∀ y ∈ S, PartSum ws y) → (∀ k ∈ known, k ∈ S ∧ PartSum ws (k + w)) →
    (∃ S', combLoop L maxCombs ws.sum w known S = .go S' ∧ S'.Pairwise (· < ·) ∧ Gaps L (· ∈ S') ∧
      ∀ y, y ∈ S' ↔ y ∈ S ∨ ∃ k ∈ known, y = k + w) ∨
    (combLoop L maxCombs ws.sum w known S = .fail ∧ Bad L maxCombs ws) := by
  intro known
  induction known with
  | nil =>
    intro S hs hg hS hk
    exact .inl ⟨S, rfl, hs, hg, fun y => ⟨.inl, fun h => h.elim id fun ⟨k, h, _⟩ => by cases h⟩⟩
  | cons k known ih =>
    intro S hs hg hS hk
    obtain ⟨hk1, hk2⟩ := hk k (List.mem_cons_self ..)
    rw [combLoop]
    rcases addComb_spec L maxCombs ws.sum hs hg (c := k + w) ⟨k, hk1, by omega⟩ (fun y hy => (hS y hy).le) hk2.le with
      ⟨S', e, h1, h2, h3⟩ | ⟨e, h⟩
    · rw [e]
      simp only
      rcases ih S' h1 h2 (fun y hy => ((h3 y).1 hy).elim (fun e => e ▸ hk2) (hS y)) (fun j hj =>
        ⟨(h3 j).2 (.inr (hk j (List.mem_cons_of_mem _ hj)).1), (hk j (List.mem_cons_of_mem _ hj)).2⟩) with
        ⟨S'', e', g1, g2, g3⟩ | h
      · refine .inl ⟨S'', e', g1, g2, fun y => ?_⟩
        rw [g3, h3]
        constructor
        · rintro ((h | h) | ⟨j, hj, h⟩)
          · exact .inr ⟨k, List.mem_cons_self .., h⟩
          · exact .inl h
          · exact .inr ⟨j, List.mem_cons_of_mem _ hj, h⟩
        · rintro (h | ⟨j, hj, h⟩)
          · exact .inl (.inr h)
          · rcases List.mem_cons.1 hj with rfl | hj
            · exact .inl (.inl h)
            · exact .inr ⟨j, hj, h⟩
      · exact .inr h
    · rw [e]
      exact .inr ⟨rfl, bad_of_added hs hS hk2 h⟩

/-- The weights. -/
def wts (l : List (Clause × Nat)) : List Nat := l.map Prod.snd

theorem thoroughLoop_spec (L maxCombs : Nat) (ws : List Nat) (hpos : ∀ w ∈ ws, 0 < w) (hrest : ∀ w ∈ ws, w + L < ws.sum) :
    ∀ (ps : List (Clause × Nat)) (done : List Nat) (S : List Nat), done ++ wts ps = ws → S.Pairwise (· < ·) →
    Gaps L (· ∈ S) → (∀ y, y ∈ S ↔ PartSum done y) →
    (∃ S', thoroughLoop L maxCombs ws.sum ps S = .go S' ∧ Gaps L (PartSum ws)) ∨
    (thoroughLoop L maxCombs ws.sum ps S = .fail ∧ Bad L maxCombs ws) := by
  intro ps
  induction ps with
  | nil =>
    intro done S hd hs hg hS
    rw [wts, List.map_nil, List.append_nil] at hd
    subst hd
    exact .inl ⟨S, rfl, fun x y hx hy => hg x y ((hS x).2 hx) ((hS y).2 hy)⟩
  | cons p ps ih =>
    intro done S hd hs hg hS
    have hsub : (done ++ [p.2]).Sublist ws := by
      rw [← hd]; exact (List.Sublist.refl done).append (by simp [wts])
    have hsub' : done.Sublist ws := (List.sublist_append_left ..).trans hsub
    have hmem : p.2 ∈ ws := by rw [← hd]; simp [wts]
    rw [thoroughLoop]
    rcases combLoop_spec L maxCombs p.2 (hpos _ hmem) ws S S hs hg (fun y hy => ((hS y).1 hy).mono hsub') (fun k hk =>
      ⟨hk, (partSum_snoc.2 (.inr (.inr ⟨k, (hS k).1 hk, rfl⟩))).mono hsub⟩) with ⟨S', e, h1, h2, h3⟩ | ⟨e, h⟩
    · rw [e]
      simp only
      have hS' : ∀ y ∈ S', PartSum ws y := by
        intro y hy
        rcases (h3 y).1 hy with h | ⟨k, hk, rfl⟩
        · exact ((hS y).1 h).mono hsub'
        · exact (partSum_snoc.2 (.inr (.inr ⟨k, (hS k).1 hk, rfl⟩))).mono hsub
      have hp : PartSum ws p.2 := (partSum_snoc.2 (.inr (.inl rfl))).mono hsub
      rcases addWeight_spec L maxCombs ws.sum h1 h2 (c := p.2) (hrest _ hmem) with
        ⟨S'', e', g1, g2, g3⟩ | ⟨e', h⟩
      · rw [e']
        simp only
        refine ih (done ++ [p.2]) S'' (by rw [← hd]; simp [wts]) g1 g2 fun y => ?_
        rw [g3, h3, partSum_snoc]
        constructor
        · rintro (h | h | ⟨k, hk, h⟩)
          · exact .inr (.inl h)
          · exact .inl ((hS y).1 h)
          · exact .inr (.inr ⟨k, (hS k).1 hk, h⟩)
        · rintro (h | h | ⟨k, hk, h⟩)
          · exact .inr (.inl ((hS y).2 h))
          · exact .inl h
          · exact .inr (.inr ⟨k, (hS k).2 hk, h⟩)
      · rw [e']
        exact .inr ⟨rfl, bad_of_added h1 hS' hp h⟩
    · rw [e]
      exact .inr ⟨rfl, h⟩

theorem foldl_wts (l : List (Clause × Nat)) (k : Nat) : l.foldl (fun s p => s + p.2) k = k + (wts l).sum := by
  induction l generalizing k with
  | nil => rfl
  | cons p l ih => rw [List.foldl_cons, ih]; simp only [wts, List.map_cons, List.sum_cons]; omega

theorem fastFail_spec {L : Nat} {l : List (Clause × Nat)} (h : fastFail L l = true) :
    ∃ x y, [x].Sublist (wts l) ∧ [y].Sublist (wts l) ∧ x < y ∧ y < x + L := by
  induction l with
  | nil => cases h
  | cons p l ih =>
    cases l with
    | nil => cases h
    | cons q l =>
      rw [fastFail, Bool.or_eq_true, decide_eq_true_eq] at h
      rcases h with h | h
      · exact ⟨p.2, q.2, by simp [wts], by simp [wts], by omega, by omega⟩
      · obtain ⟨x, y, h1, h2, h3⟩ := ih h
        exact ⟨x, y, h1.trans (by simp [wts]), h2.trans (by simp [wts]), h3⟩

theorem gaps_iff_separated {left ws : List Nat} (h : ∀ w ∈ ws, left.sum < w) :
    Gaps left.sum (PartSum ws) ↔ Separated left ws := by
  constructor
  · intro hg s t hs ht hlt
    by_cases hst : t = []
    · subst hst; simp at hlt
    · by_cases he : s = []
      · subst he
        obtain ⟨x, hx⟩ := List.exists_mem_of_ne_nil t hst
        have h1 := h x (ht.subset hx)
        have h2 : x ≤ t.sum := le_sum hx
        simp only [List.sum_nil]; omega
      · exact hg s.sum t.sum ⟨s, hs, he, rfl⟩ ⟨t, ht, hst, rfl⟩ hlt
  · rintro hS x y ⟨s, h1, _, rfl⟩ ⟨t, h2, _, rfl⟩ hxy
    exact hS s t h1 h2 hxy

/-- The thorough check accepts only separated weights, and all of them if it has enough room. -/
theorem checkThorough_spec (right : List (Clause × Nat)) (left : List Nat) (maxCombs : Nat) (h2 : 2 ≤ right.length)
    (h : ∀ w ∈ wts right, left.sum < w) :
    ∃ b, checkThorough right left.sum maxCombs = some b ∧ (b = true → Separated left (wts right)) ∧
      (Separated left (wts right) → 2 ^ right.length ≤ maxCombs → b = true) := by
  cases right with
  | nil => simp at h2
  | cons p ps =>
    cases ps with
    | nil => simp at h2
    | cons q ps =>
      rw [checkThorough]
      generalize hr : p :: q :: ps = right at h2 h ⊢
      by_cases hff : fastFail left.sum right = true
      · rw [if_pos hff]
        refine ⟨false, rfl, by simp, fun hS => ?_⟩
        obtain ⟨x, y, h3, h4, h5, h6⟩ := fastFail_spec hff
        have := hS [x] [y] h3 h4 (by simpa using h5)
        simp at this; omega
      · rw [if_neg hff, foldl_wts, Nat.zero_add]
        have hsplit : ∀ w ∈ wts right, w + left.sum < (wts right).sum := by
          intro w hw
          subst hr
          have h0 := h p.2 (by simp [wts])
          have h1 := h q.2 (by simp [wts])
          simp only [wts, List.map_cons, List.sum_cons, List.mem_cons] at hw ⊢
          rcases hw with rfl | rfl | hw
          · omega
          · omega
          · have := le_sum hw; omega
        have hlen : (wts right).length = right.length := by simp [wts]
        rcases thoroughLoop_spec left.sum maxCombs (wts right) (fun w hw => by have := h w hw; omega) hsplit right [] []
          (by simp) .nil (fun x y hx => by cases hx) (fun y => ⟨fun h => (by cases h), fun ⟨s, h1, h2, _⟩ =>
            absurd (List.sublist_nil.1 h1) h2⟩) with ⟨S', e, hg⟩ | ⟨e, hb⟩
        · rw [e]
          exact ⟨true, rfl, fun _ => (gaps_iff_separated h).1 hg, fun _ _ => rfl⟩
        · rw [e]
          refine ⟨false, rfl, by simp, fun hS hm => absurd ⟨(gaps_iff_separated h).2 hS, by rw [hlen]; exact hm⟩ hb⟩

/-! ### Sums, potential splits and greatest common divisors -/

theorem gcd_eq (a b : Nat) : gcd a b = Nat.gcd a b := by
  induction a, b using gcd.induct with
  | case1 a => rw [gcd]; simp
  | case2 a b h ih => rw [gcd, dif_neg h, ih, Nat.gcd_comm a b, Nat.gcd_rec b a, Nat.gcd_comm]

theorem levelGcd_eq {l : List (Clause × Nat)} (h : l ≠ []) : levelGcd l = some (weightGcd l) := by
  have hf : ∀ (l : List (Clause × Nat)) (k : Nat), l.foldl (fun g q => gcd g q.2) k = Nat.gcd k (weightGcd l) := by
    intro l
    induction l with
    | nil => intro k; simp [weightGcd]
    | cons p l ih =>
      intro k
      rw [List.foldl_cons, ih, gcd_eq]
      simp only [weightGcd, List.foldr_cons]
      rw [Nat.gcd_assoc]
  cases l with
  | nil => exact absurd rfl h
  | cons p l =>
    rw [levelGcd, hf]
    simp only [weightGcd, List.foldr_cons]
    rw [← Nat.gcd_assoc, Nat.gcd_self]

theorem weightGcd_dvd {l : List (Clause × Nat)} {p : Clause × Nat} (h : p ∈ l) : weightGcd l ∣ p.2 := by
  induction l with
  | nil => cases h
  | cons q l ih =>
    simp only [weightGcd, List.foldr_cons]
    rcases List.mem_cons.1 h with rfl | h
    · exact Nat.gcd_dvd_left ..
    · exact Nat.dvd_trans (Nat.gcd_dvd_right ..) (ih h)

theorem dvd_weightGcd {l : List (Clause × Nat)} {d : Nat} (h : ∀ p ∈ l, d ∣ p.2) : d ∣ weightGcd l := by
  induction l with
  | nil => exact Nat.dvd_zero d
  | cons q l ih =>
    simp only [weightGcd, List.foldr_cons]
    exact Nat.dvd_gcd (h q (List.mem_cons_self ..)) (ih fun p hp => h p (List.mem_cons_of_mem _ hp))

theorem weightGcd_pos {l : List (Clause × Nat)} (hn : l ≠ []) (h : ∀ p ∈ l, 0 < p.2) : 0 < weightGcd l := by
  cases l with
  | nil => exact absurd rfl hn
  | cons p l => exact Nat.pos_of_dvd_of_pos (weightGcd_dvd (List.mem_cons_self ..)) (h p (List.mem_cons_self ..))

theorem sums_get (l : List (Clause × Nat)) (idx sum e : Nat) (h : e < l.length) :
    (sumsPotSplits l idx sum).1[e]? = some (sum + ((wts l).take (e + 1)).sum) := by
  induction l generalizing idx sum e with
  | nil => simp at h
  | cons p l ih =>
    have hs : (sumsPotSplits (p :: l) idx sum).1 = (sum + p.2) :: (sumsPotSplits l (idx + 1) (sum + p.2)).1 := by
      cases l <;> rfl
    rw [hs]
    cases e with
    | zero => simp [wts]
    | succ e =>
      rw [List.getElem?_cons_succ, ih _ _ _ (by simpa using h)]
      simp only [wts, List.map_cons, List.take_succ_cons, List.sum_cons]
      congr 1; omega

theorem pots_mem (l : List (Clause × Nat)) (idx sum i : Nat) :
    i ∈ (sumsPotSplits l idx sum).2 ↔
      ∃ e, i = idx + e ∧ e + 1 < l.length ∧ sum + ((wts l).take (e + 1)).sum < (wts l).getD (e + 1) 0 := by
  induction l generalizing idx sum with
  | nil => simp [sumsPotSplits]
  | cons p l ih =>
    cases l with
    | nil => simp [sumsPotSplits]
    | cons q l =>
      have hs : (sumsPotSplits (p :: q :: l) idx sum).2 = if q.2 > sum + p.2 then
          idx :: (sumsPotSplits (q :: l) (idx + 1) (sum + p.2)).2 else (sumsPotSplits (q :: l) (idx + 1) (sum + p.2)).2 := rfl
      have key : (∃ e, i = idx + e ∧ e + 1 < (p :: q :: l).length ∧
            sum + ((wts (p :: q :: l)).take (e + 1)).sum < (wts (p :: q :: l)).getD (e + 1) 0) ↔
          (i = idx ∧ sum + p.2 < q.2) ∨ i ∈ (sumsPotSplits (q :: l) (idx + 1) (sum + p.2)).2 := by
        rw [ih]
        constructor
        · rintro ⟨e, h1, h2, h3⟩
          cases e with
          | zero => left; simp [wts] at h3; omega
          | succ e =>
            right
            refine ⟨e, by omega, by simpa using h2, ?_⟩
            simp only [wts, List.map_cons, List.take_succ_cons, List.sum_cons, List.getD_cons_succ] at h3 ⊢
            omega
        · rintro (⟨h1, h2⟩ | ⟨e, h1, h2, h3⟩)
          · exact ⟨0, by omega, by simp, by simp [wts]; omega⟩
          · refine ⟨e + 1, by omega, by simpa using h2, ?_⟩
            simp only [wts, List.map_cons, List.take_succ_cons, List.sum_cons, List.getD_cons_succ] at h3 ⊢
            omega
      rw [hs, key]
      split
      · rename_i h
        rw [List.mem_cons]
        exact ⟨fun h' => h'.imp (fun e => ⟨e, h⟩) id, fun h' => h'.imp (fun e => e.1) id⟩
      · rename_i h
        exact ⟨.inr, fun h' => h'.elim (fun e => absurd e.2 h) id⟩

theorem pots_sorted (l : List (Clause × Nat)) (idx sum : Nat) : (sumsPotSplits l idx sum).2.Pairwise (· < ·) := by
  induction l generalizing idx sum with
  | nil => exact .nil
  | cons p l ih =>
    cases l with
    | nil => exact .nil
    | cons q l =>
      have hs : (sumsPotSplits (p :: q :: l) idx sum).2 = if q.2 > sum + p.2 then
          idx :: (sumsPotSplits (q :: l) (idx + 1) (sum + p.2)).2 else (sumsPotSplits (q :: l) (idx + 1) (sum + p.2)).2 := rfl
      rw [hs]
      split
      · refine List.pairwise_cons.2 ⟨fun i hi => ?_, ih ..⟩
        obtain ⟨e, h, _⟩ := (pots_mem ..).1 hi
        omega
      · exact ih ..

theorem gcdsBack_get (l : List (Clause × Nat)) (e : Nat) (h : e < l.length) :
    (gcdsBack l)[e]? = some (weightGcd (l.drop e)) := by
  induction l generalizing e with
  | nil => simp at h
  | cons p l ih =>
    have hc : gcdsBack (p :: l) = weightGcd (p :: l) :: gcdsBack l := by
      cases l with
      | nil => simp [gcdsBack, weightGcd]
      | cons q l =>
        have h0 := ih 0 (by simp)
        rw [gcdsBack]
        cases hg : gcdsBack (q :: l) with
        | nil => rw [hg] at h0; cases h0
        | cons g gs =>
          rw [hg] at h0
          simp only [List.getElem?_cons_zero, Option.some.injEq, List.drop_zero] at h0
          simp only
          rw [gcd_eq, h0, Nat.gcd_comm]
          rfl
    rw [hc]
    cases e with
    | zero => rfl
    | succ e => rw [List.getElem?_cons_succ, ih e (by simpa using h)]; rfl

/-- If the greatest common divisor is larger than all of the left side, the two sides are separated. -/
theorem separated_of_gcd {left : List Nat} {right : List (Clause × Nat)} (h : left.sum < weightGcd right) :
    Separated left (wts right) := by
  intro s t hs ht hlt
  have hd : ∀ s : List Nat, s.Sublist (wts right) → weightGcd right ∣ s.sum := by
    intro s hs
    have hm : ∀ x ∈ s, weightGcd right ∣ x := by
      intro x hx
      obtain ⟨p, hp, rfl⟩ := List.mem_map.1 (hs.subset hx)
      exact weightGcd_dvd hp
    clear hs
    induction s with
    | nil => exact Nat.dvd_zero _
    | cons x s ih =>
      rw [List.sum_cons]
      exact Nat.dvd_add (hm x (List.mem_cons_self ..)) (ih fun y hy => hm y (List.mem_cons_of_mem _ hy))
  have h1 := Nat.dvd_sub (hd t ht) (hd s hs)
  have h2 := Nat.le_of_dvd (by omega) h1
  omega

/-! ### The splits -/

/-- The weights in ascending order. -/
def Ascending (l : List (Clause × Nat)) : Prop := (wts l).Pairwise (· ≤ ·)

theorem take_wts (l : List (Clause × Nat)) (n : Nat) : wts (l.take n) = (wts l).take n := List.map_take ..
theorem drop_wts (l : List (Clause × Nat)) (n : Nat) : wts (l.drop n) = (wts l).drop n := List.map_drop ..
theorem length_wts (l : List (Clause × Nat)) : (wts l).length = l.length := List.length_map ..

theorem getD_le {ws : List Nat} (h : ws.Pairwise (· ≤ ·)) {i j : Nat} (hij : i ≤ j) (hj : j < ws.length) :
    ws.getD i 0 ≤ ws.getD j 0 := by
  rw [List.getD_eq_getElem?_getD, List.getD_eq_getElem?_getD, List.getElem?_eq_getElem hj,
    List.getElem?_eq_getElem (by omega : i < ws.length)]
  rcases Nat.lt_or_eq_of_le hij with hlt | rfl
  · exact List.pairwise_iff_getElem.1 h i j (by omega) hj hlt
  · exact Nat.le_refl _

/-- A weight in the right part is at least its first one. -/
theorem le_of_mem_drop {ws : List Nat} (h : ws.Pairwise (· ≤ ·)) {n w : Nat} (hw : w ∈ ws.drop n) : ws.getD n 0 ≤ w := by
  obtain ⟨i, hi, rfl⟩ := List.mem_iff_getElem.1 hw
  rw [List.length_drop] at hi
  have := getD_le h (Nat.le_add_right n i) (by omega)
  rw [List.getD_eq_getElem?_getD (i := n + i), List.getElem?_eq_getElem (by omega)] at this
  rw [List.getElem_drop]
  exact this

/-- Whether the algorithm splits after position `i`, if it has enough room. -/
def TakesSplit (alg : SplitAlg) (l : List (Clause × Nat)) (i : Nat) : Prop :=
  ((wts l).take (i + 1)).sum < weightGcd (l.drop (i + 1)) ∨
  alg = .gbmo ∧ Separated ((wts l).take (i + 1)) ((wts l).drop (i + 1))

theorem gbmoLoop_spec (alg : SplitAlg) (maxCombs : Nat) (l : List (Clause × Nat)) (ha : Ascending l) (pot : List Nat)
    (hp : ∀ e ∈ pot, e + 1 < l.length ∧ ((wts l).take (e + 1)).sum < (wts l).getD (e + 1) 0) :
    ∃ es, gbmoLoop alg maxCombs l (sumsPotSplits l 0 0).1 (gcdsBack l) pot = some es ∧ es.Sublist pot ∧
      (∀ e ∈ es, TakesSplit alg l e) ∧
      ((alg = .gbmo → 2 ^ l.length ≤ maxCombs) → ∀ e ∈ pot, TakesSplit alg l e → e ∈ es) ∧
      ∀ e ∈ pot, ((wts l).take (e + 1)).sum < weightGcd (l.drop (e + 1)) → e ∈ es := by
  induction pot with
  | nil => exact ⟨[], rfl, .slnil, fun e h => (by cases h), fun _ e h => (by cases h), fun e h => (by cases h)⟩
  | cons e pot ih =>
    obtain ⟨es, h1, h2, h3, h4, h5⟩ := ih fun e he => hp e (List.mem_cons_of_mem _ he)
    obtain ⟨hp1, hp2⟩ := hp e (List.mem_cons_self ..)
    rw [gbmoLoop, sums_get l 0 0 e (by omega), gcdsBack_get l (e + 1) hp1, Nat.zero_add]
    simp only
    have hb : ∃ b, (if ((wts l).take (e + 1)).sum < weightGcd (l.drop (e + 1)) then some true
          else if alg = .gbmo then checkThorough (l.drop (e + 1)) ((wts l).take (e + 1)).sum maxCombs else some false) = some b ∧
        (b = true → TakesSplit alg l e) ∧
        ((alg = .gbmo → 2 ^ l.length ≤ maxCombs) → TakesSplit alg l e → b = true) ∧
        (((wts l).take (e + 1)).sum < weightGcd (l.drop (e + 1)) → b = true) := by
      by_cases hg : ((wts l).take (e + 1)).sum < weightGcd (l.drop (e + 1))
      · rw [if_pos hg]
        exact ⟨true, rfl, fun _ => .inl hg, fun _ _ => rfl, fun _ => rfl⟩
      · rw [if_neg hg]
        by_cases hal : alg = .gbmo
        · rw [if_pos hal]
          have hlen : 2 ≤ (l.drop (e + 1)).length := by
            refine Nat.le_of_not_lt fun hlt => hg ?_
            rw [List.length_drop] at hlt
            have hone : (l.drop (e + 1)).length = 1 := by rw [List.length_drop]; omega
            obtain ⟨p, hpe⟩ := List.length_eq_one_iff.1 hone
            rw [hpe]
            have : (wts l).getD (e + 1) 0 = p.2 := by
              have h' : (wts (l.drop (e + 1)))[0]? = some p.2 := by rw [hpe]; rfl
              rw [drop_wts, List.getElem?_drop] at h'
              rw [List.getD_eq_getElem?_getD]
              simp only [Nat.add_zero] at h'
              rw [h']; rfl
            simp only [weightGcd, List.foldr_cons, List.foldr_nil, Nat.gcd_zero_right]
            omega
          obtain ⟨b, k1, k2, k3⟩ := checkThorough_spec (l.drop (e + 1)) ((wts l).take (e + 1)) maxCombs hlen (fun w hw => by
            rw [drop_wts] at hw
            have := le_of_mem_drop ha hw
            omega)
          rw [drop_wts] at k2 k3
          refine ⟨b, k1, fun hb => .inr ⟨hal, k2 hb⟩, fun hm ht => ?_, fun h => absurd h hg⟩
          rcases ht with ht | ht
          · exact absurd ht hg
          · refine k3 ht.2 (Nat.le_trans (Nat.pow_le_pow_right (by decide) ?_) (hm hal))
            rw [List.length_drop]; omega
        · rw [if_neg hal]
          refine ⟨false, rfl, by simp, fun _ ht => ?_, fun h => absurd h hg⟩
          rcases ht with ht | ht
          · exact absurd ht hg
          · exact absurd ht.1 hal
    obtain ⟨b, hb1, hb2, hb3, hb4⟩ := hb
    rw [hb1, h1]
    cases b with
    | true =>
      refine ⟨e :: es, rfl, h2.cons_cons e, fun i hi => ?_, fun hm i hi ht => ?_, fun i hi ht => ?_⟩
      · rcases List.mem_cons.1 hi with rfl | hi
        · exact hb2 rfl
        · exact h3 i hi
      · rcases List.mem_cons.1 hi with rfl | hi
        · exact List.mem_cons_self ..
        · exact List.mem_cons_of_mem _ (h4 hm i hi ht)
      · rcases List.mem_cons.1 hi with rfl | hi
        · exact List.mem_cons_self ..
        · exact List.mem_cons_of_mem _ (h5 i hi ht)
    | false =>
      refine ⟨es, rfl, h2.cons e, h3, fun hm i hi ht => ?_, fun i hi ht => ?_⟩
      · rcases List.mem_cons.1 hi with rfl | hi
        · cases hb3 hm ht
        · exact h4 hm i hi ht
      · rcases List.mem_cons.1 hi with rfl | hi
        · cases hb4 ht
        · exact h5 i hi ht

theorem TakesSplit.separated {alg : SplitAlg} {l : List (Clause × Nat)} {i : Nat} (h : TakesSplit alg l i) :
    Separated ((wts l).take (i + 1)) ((wts l).drop (i + 1)) := by
  rcases h with h | h
  · rw [← drop_wts]; exact separated_of_gcd h
  · exact h.2

/-- The loop of `split_bmo`: where the weight increases, if each weight is larger than the sum of all smaller ones. -/
theorem bmoLoop_spec (l : List (Clause × Nat)) (idx last sum : Nat) (ends : List Nat) (hi : 1 ≤ idx)
    (ha : (last :: wts l).Pairwise (· ≤ ·)) :
    let ws := last :: wts l
    (bmoLoop l idx last sum ends = [] ∧ ∃ e, e < l.length ∧ ws.getD e 0 < ws.getD (e + 1) 0 ∧
        ws.getD (e + 1) 0 ≤ sum + ((wts l).take e).sum) ∨
    ∃ more, bmoLoop l idx last sum ends = ends ++ more ∧ more.Pairwise (· < ·) ∧
      (∀ i, i ∈ more ↔ ∃ e, i + 1 = idx + e ∧ e < l.length ∧ ws.getD e 0 < ws.getD (e + 1) 0) ∧
      ∀ e, e < l.length → ws.getD e 0 < ws.getD (e + 1) 0 → sum + ((wts l).take e).sum < ws.getD (e + 1) 0 := by
  induction l generalizing idx last sum ends with
  | nil =>
    exact .inr ⟨[], by simp [bmoLoop], .nil, by simp, by simp⟩
  | cons p l ih =>
    intro ws
    have hw : ∀ e, ws.getD (e + 1) 0 = (p.2 :: wts l).getD e 0 := fun e => by simp [ws, wts]
    have ht : ∀ e, ((wts (p :: l)).take (e + 1)).sum = p.2 + ((wts l).take e).sum := fun e => by simp [wts]
    rw [bmoLoop]
    by_cases hj : p.2 > last
    · rw [if_pos hj]
      by_cases hs : p.2 ≤ sum
      · rw [if_pos hs]
        exact .inl ⟨rfl, 0, by simp, by simpa [ws, wts] using hj, by simpa [ws, wts] using hs⟩
      · rw [if_neg hs]
        rcases ih (idx + 1) p.2 (sum + p.2) (ends ++ [idx - 1]) (by omega) ((List.pairwise_cons.1 ha).2) with ⟨h1, e, h2, h3, h4⟩ | ⟨more, h1, h2, h3, h4⟩
        · refine .inl ⟨h1, e + 1, by simpa using h2, by rw [hw, hw]; exact h3, ?_⟩
          rw [hw, ht]; omega
        · refine .inr ⟨(idx - 1) :: more, by rw [h1, List.append_assoc]; rfl, ?_, fun i => ?_, fun e he hlt => ?_⟩
          · refine List.pairwise_cons.2 ⟨fun i hi => ?_, h2⟩
            obtain ⟨e, h5, _⟩ := (h3 i).1 hi
            omega
          · rw [List.mem_cons, h3]
            constructor
            · rintro (h | ⟨e, h5, h6, h7⟩)
              · exact ⟨0, by omega, by simp, by simpa [ws, wts] using hj⟩
              · exact ⟨e + 1, by omega, by simpa using h6, by rw [hw, hw]; exact h7⟩
            · rintro ⟨e, h5, h6, h7⟩
              cases e with
              | zero => exact .inl (by omega)
              | succ e => exact .inr ⟨e, by omega, by simpa using h6, by rw [hw, hw] at h7; exact h7⟩
          · cases e with
            | zero => simp [ws, wts]; omega
            | succ e =>
              rw [hw, hw] at hlt
              have := h4 e (by simpa using he) hlt
              rw [hw, ht]; omega
    · rw [if_neg hj]
      have hz : ¬ ws.getD 0 0 < ws.getD 1 0 := by simpa [ws, wts] using hj
      have he : p.2 = last := by
        have := (List.pairwise_cons.1 ha).1 p.2 (by simp [wts])
        omega
      rcases ih (idx + 1) last (sum + p.2) ends (by omega) (by rw [← he]; exact (List.pairwise_cons.1 ha).2) with
        ⟨h1, e, h2, h3, h4⟩ | ⟨more, h1, h2, h3, h4⟩
      · rw [← he] at h3 h4
        refine .inl ⟨h1, e + 1, by simpa using h2, by rw [hw, hw]; exact h3, ?_⟩
        rw [hw, ht]; omega
      · rw [← he] at h3 h4
        refine .inr ⟨more, h1, h2, fun i => ?_, fun e h5 hlt => ?_⟩
        · rw [h3]
          constructor
          · rintro ⟨e, h5, h6, h7⟩
            exact ⟨e + 1, by omega, by simpa using h6, by rw [hw, hw]; exact h7⟩
          · rintro ⟨e, h5, h6, h7⟩
            cases e with
            | zero => exact absurd h7 hz
            | succ e => exact ⟨e, by omega, by simpa using h6, by rw [hw, hw] at h7; exact h7⟩
        · cases e with
          | zero => exact absurd hlt hz
          | succ e =>
            rw [hw, hw] at hlt
            have := h4 e (by simpa using h5) hlt
            rw [hw, ht]; omega

/-! ### The slices -/

/-- The parts of the sorted clauses. -/
def slices (l : List (Clause × Nat)) : (start : Nat) → (ends : List Nat) → List (List (Clause × Nat))
  | start, [] => [l.drop start]
  | start, e :: ends => (l.take (e + 1)).drop start :: slices l (e + 1) ends

/-- The objective of a part, with its statistics. -/
def levelObj (L : List (Clause × Nat)) : Objective × ObjStats :=
  let o := Objective.ofClauses (L.map fun p => (p.1, p.2 / weightGcd L))
  (o, objStats o (weightGcd L))

theorem splitObj_eq {L : List (Clause × Nat)} (hn : L ≠ []) (h : ∀ p ∈ L, 0 < p.2) : splitObj L = some (levelObj L) := by
  rw [splitObj, levelGcd_eq hn]
  simp only
  rw [if_neg (Nat.ne_of_gt (weightGcd_pos hn h))]
  rfl

/-- The ends are in order and inside of the list. -/
def EndsOk (n start : Nat) (ends : List Nat) : Prop :=
  ends.Pairwise (· < ·) ∧ (∀ e ∈ ends, start ≤ e ∧ e + 1 < n) ∧ start < n

theorem EndsOk.tail {n start e : Nat} {ends : List Nat} (h : EndsOk n start (e :: ends)) : EndsOk n (e + 1) ends := by
  obtain ⟨h1, h2, h3⟩ := h
  rw [List.pairwise_cons] at h1
  exact ⟨h1.2, fun i hi => ⟨h1.1 i hi, (h2 i (List.mem_cons_of_mem _ hi)).2⟩, (h2 e (List.mem_cons_self ..)).2⟩

theorem slices_nonempty {l : List (Clause × Nat)} {start : Nat} {ends : List Nat} (h : EndsOk l.length start ends) :
    ∀ L ∈ slices l start ends, L ≠ [] := by
  induction ends generalizing start with
  | nil =>
    intro L hL
    rw [slices, List.mem_singleton] at hL
    subst hL
    intro he
    have := List.drop_eq_nil_iff.1 he
    have := h.2.2
    omega
  | cons e ends ih =>
    intro L hL
    rcases List.mem_cons.1 hL with rfl | hL
    · intro he
      have h1 := List.drop_eq_nil_iff.1 he
      rw [List.length_take] at h1
      have := h.2.1 e (List.mem_cons_self ..)
      omega
    · exact ih h.tail L hL

theorem slices_flatten {l : List (Clause × Nat)} {start : Nat} {ends : List Nat} (h : EndsOk l.length start ends) :
    (slices l start ends).flatten = l.drop start := by
  induction ends generalizing start with
  | nil => simp [slices]
  | cons e ends ih =>
    rw [slices, List.flatten_cons, ih h.tail]
    have := h.2.1 e (List.mem_cons_self ..)
    have hd : l.drop start = ((l.take (e + 1)) ++ l.drop (e + 1)).drop start := by rw [List.take_append_drop]
    rw [hd, List.drop_append_of_le_length (by rw [List.length_take]; omega)]

theorem length_slices (l : List (Clause × Nat)) (start : Nat) (ends : List Nat) :
    (slices l start ends).length = ends.length + 1 := by
  induction ends generalizing start with
  | nil => rfl
  | cons e ends ih => rw [slices, List.length_cons, ih]; rfl

theorem mem_slices {l : List (Clause × Nat)} {start : Nat} {ends : List Nat} {L : List (Clause × Nat)}
    (h : L ∈ slices l start ends) : ∀ p ∈ L, p ∈ l := by
  induction ends generalizing start with
  | nil =>
    rw [slices, List.mem_singleton] at h
    subst h
    exact fun p hp => List.mem_of_mem_drop hp
  | cons e ends ih =>
    rcases List.mem_cons.1 h with rfl | h
    · exact fun p hp => List.mem_of_mem_take (List.mem_of_mem_drop hp)
    · exact ih h

theorem performSplit_eq {l : List (Clause × Nat)} (hpos : ∀ p ∈ l, 0 < p.2) {start : Nat} {ends : List Nat}
    (h : EndsOk l.length start ends) : performSplit l start ends = some ((slices l start ends).map levelObj) := by
  induction ends generalizing start with
  | nil =>
    rw [performSplit, splitObj_eq (slices_nonempty h _ (by simp [slices])) fun p hp => hpos p (List.mem_of_mem_drop hp)]
    rfl
  | cons e ends ih =>
    have := h.2.1 e (List.mem_cons_self ..)
    rw [performSplit, if_neg (by omega), splitObj_eq (slices_nonempty h _ (by simp [slices])) fun p hp =>
      hpos p (List.mem_of_mem_take (List.mem_of_mem_drop hp)), ih h.tail]
    rfl

/-! ### Parts that do not interfere -/

/-- Each part is separated from all parts before it. -/
def SepFrom (left : List Nat) : List (List (Clause × Nat)) → Prop
  | [] => True
  | L :: Ls => Separated left (wts L) ∧ SepFrom (left ++ wts L) Ls

theorem separated_sublist {left ws vs : List Nat} (h : Separated left ws) (hs : vs.Sublist ws) : Separated left vs :=
  fun s t h1 h2 => h s t (h1.trans hs) (h2.trans hs)

theorem separated_nil (ws : List Nat) : Separated [] ws := fun s t _ _ h => by simpa using h

/-- A slice that starts after the end `e` and has no end inside is separated from everything before. -/
def SliceSep (ws ends : List Nat) : Prop :=
  ∀ e ∈ ends, ∀ f, e < f → f < ws.length → (∀ i ∈ ends, i ≤ e ∨ f ≤ i) →
    Separated (ws.take (e + 1)) ((ws.take (f + 1)).drop (e + 1))

theorem slices_sep {l : List (Clause × Nat)} {all : List Nat} (hsep : SliceSep (wts l) all) {start : Nat} {ends : List Nat}
    (h : EndsOk l.length start ends) (hsub : ∀ e ∈ ends, e ∈ all) (hall : ∀ i ∈ all, i < start ∨ i ∈ ends)
    (hst : start = 0 ∨ ∃ e ∈ all, start = e + 1) : SepFrom ((wts l).take start) (slices l start ends) := by
  induction ends generalizing start with
  | nil =>
    refine ⟨?_, trivial⟩
    rcases hst with rfl | ⟨e, he, rfl⟩
    · exact separated_nil _
    · have hlt := h.2.2
      have hw := length_wts l
      have := hsep e he (l.length - 1) (by omega) (by omega) fun i hi => by
        rcases hall i hi with h1 | h1
        · exact .inl (by omega)
        · cases h1
      rw [List.take_of_length_le (l := wts l) (i := l.length - 1 + 1) (by omega)] at this
      rwa [drop_wts]
  | cons e ends ih =>
    have hr := h.2.1 e (List.mem_cons_self ..)
    have hp := List.pairwise_cons.1 h.1
    have hw := length_wts l
    refine ⟨?_, ?_⟩
    · rcases hst with rfl | ⟨e', he', rfl⟩
      · exact separated_nil _
      · rw [drop_wts, take_wts]
        refine hsep e' he' e (by omega) (by omega) fun i hi => ?_
        rcases hall i hi with h1 | h1
        · exact .inl (by omega)
        · rcases List.mem_cons.1 h1 with rfl | h1
          · exact .inr (Nat.le_refl _)
          · exact .inr (Nat.le_of_lt (hp.1 i h1))
    · have hcat : (wts l).take start ++ wts ((l.take (e + 1)).drop start) = (wts l).take (e + 1) := by
        rw [drop_wts, take_wts]
        conv_rhs => rw [← List.take_append_drop start ((wts l).take (e + 1))]
        rw [List.take_take, Nat.min_eq_left (by omega)]
      show SepFrom ((wts l).take start ++ wts ((l.take (e + 1)).drop start)) (slices l (e + 1) ends)
      rw [hcat]
      refine ih h.tail (fun i hi => hsub i (List.mem_cons_of_mem _ hi)) (fun i hi => ?_)
        (.inr ⟨e, hsub e (List.mem_cons_self ..), rfl⟩)
      rcases hall i hi with h1 | h1
      · exact .inl (by omega)
      · rcases List.mem_cons.1 h1 with rfl | h1
        · exact .inl (by omega)
        · exact .inr h1

theorem sliceSep_of_separated {l : List (Clause × Nat)} {ends : List Nat}
    (h : ∀ e ∈ ends, Separated ((wts l).take (e + 1)) ((wts l).drop (e + 1))) : SliceSep (wts l) ends := by
  intro e he f _ _ _
  exact separated_sublist (h e he) ((List.take_sublist ..).drop (e + 1))

/-- Weights that are all equal, and larger than the left side. -/
theorem separated_const {left ws : List Nat} {w : Nat} (h : ∀ x ∈ ws, x = w) (hw : left.sum < w) : Separated left ws := by
  have hs : ∀ s : List Nat, s.Sublist ws → s.sum = s.length * w := by
    intro s hs
    have hm : ∀ x ∈ s, x = w := fun x hx => h x (hs.subset hx)
    clear hs
    induction s with
    | nil => simp
    | cons x s ih =>
      rw [List.sum_cons, ih fun y hy => hm y (List.mem_cons_of_mem _ hy), hm x (List.mem_cons_self ..), List.length_cons,
        Nat.succ_mul, Nat.add_comm]
  intro s t h1 h2 hlt
  rw [hs s h1, hs t h2] at hlt ⊢
  have : s.length < t.length := Nat.lt_of_mul_lt_mul_right hlt
  have : (s.length + 1) * w ≤ t.length * w := Nat.mul_le_mul_right w this
  rw [Nat.succ_mul] at this
  omega

theorem sliceSep_bmo {ws ends : List Nat} (ha : ws.Pairwise (· ≤ ·))
    (hm : ∀ i, i ∈ ends ↔ i + 1 < ws.length ∧ ws.getD i 0 < ws.getD (i + 1) 0)
    (hs : ∀ i ∈ ends, (ws.take (i + 1)).sum < ws.getD (i + 1) 0) : SliceSep ws ends := by
  intro e he f hef hf hno
  refine separated_const (w := ws.getD (e + 1) 0) (fun x hx => ?_) (hs e he)
  have heq : ∀ k, e + 1 + k ≤ f → ws.getD (e + 1 + k) 0 = ws.getD (e + 1) 0 := by
    intro k
    induction k with
    | zero => intro _; rfl
    | succ k ih =>
      intro hk
      have h1 := ih (by omega)
      have h2 : e + 1 + k ∉ ends := fun hc => by
        rcases hno _ hc with h | h <;> omega
      rw [hm] at h2
      have h3 := getD_le ha (i := e + 1 + k) (j := e + 1 + k + 1) (by omega) (by omega)
      have h4 : ¬ ws.getD (e + 1 + k) 0 < ws.getD (e + 1 + k + 1) 0 := fun h => h2 ⟨by omega, h⟩
      have h5 : e + 1 + (k + 1) = e + 1 + k + 1 := by omega
      rw [h5]; omega
  obtain ⟨i, hi, rfl⟩ := List.mem_iff_getElem.1 hx
  rw [List.length_drop, List.length_take] at hi
  rw [List.getElem_drop, List.getElem_take, ← heq i (by omega), List.getD_eq_getElem?_getD,
    List.getElem?_eq_getElem (by omega)]
  rfl

/-! ### Costs -/

theorem clsCost_part (a : Asg) (L : List (Clause × Nat)) : ∃ s : List Nat, s.Sublist (wts L) ∧ s.sum = clsCost a L := by
  induction L with
  | nil => exact ⟨[], .slnil, rfl⟩
  | cons p L ih =>
    obtain ⟨s, h1, h2⟩ := ih
    obtain ⟨c, w⟩ := p
    rw [clsCost]
    by_cases h : Clause.falsified a c = true
    · rw [if_pos h]; exact ⟨w :: s, h1.cons_cons w, by simp [h2]⟩
    · rw [if_neg h]; exact ⟨s, h1.cons w, by simp [h2]⟩

theorem clsCost_le (a : Asg) (L : List (Clause × Nat)) : clsCost a L ≤ (wts L).sum := by
  obtain ⟨s, h1, h2⟩ := clsCost_part a L
  rw [← h2]; exact sum_le_of_sublist h1

theorem clsCost_append (a : Asg) (L M : List (Clause × Nat)) : clsCost a (L ++ M) = clsCost a L + clsCost a M := by
  induction L with
  | nil => simp [clsCost]
  | cons p L ih => obtain ⟨c, w⟩ := p; simp only [List.cons_append, clsCost, ih]; omega

theorem clsCost_perm (a : Asg) {L M : List (Clause × Nat)} (h : L.Perm M) : clsCost a L = clsCost a M := by
  induction h with
  | nil => rfl
  | cons p _ ih => obtain ⟨c, w⟩ := p; simp only [clsCost, ih]
  | swap p q l => obtain ⟨c, w⟩ := p; obtain ⟨d, v⟩ := q; simp only [clsCost]; omega
  | trans _ _ h1 h2 => rw [h1, h2]

theorem clsCost_div (a : Asg) {L : List (Clause × Nat)} {g : Nat} (h : ∀ p ∈ L, g ∣ p.2) :
    clsCost a L = g * clsCost a (L.map fun p => (p.1, p.2 / g)) := by
  induction L with
  | nil => rfl
  | cons p L ih =>
    obtain ⟨c, w⟩ := p
    rw [List.map_cons, clsCost, clsCost, ih fun q hq => h q (List.mem_cons_of_mem _ hq), Nat.mul_add]
    congr 1
    split
    · exact (Nat.mul_div_cancel' (h (c, w) (List.mem_cons_self ..))).symm
    · simp

/-- Comparing costs level by level. -/
def PartLt (a b : Asg) : List (List (Clause × Nat)) → Prop
  | [] => False
  | L :: Ls => PartLt a b Ls ∨ ((∀ M ∈ Ls, clsCost a M = clsCost b M) ∧ clsCost a L < clsCost b L)

theorem cost_lt_iff (a b : Asg) (Ls : List (List (Clause × Nat))) (left : List Nat) (h : SepFrom left Ls) (x y : Nat)
    (hx : x ≤ left.sum) (hy : y ≤ left.sum) :
    x + clsCost a Ls.flatten < y + clsCost b Ls.flatten ↔
      PartLt a b Ls ∨ ((∀ M ∈ Ls, clsCost a M = clsCost b M) ∧ x < y) := by
  induction Ls generalizing left x y with
  | nil => simp [PartLt, clsCost]
  | cons L Ls ih =>
    obtain ⟨h1, h2⟩ := h
    rw [List.flatten_cons, clsCost_append, clsCost_append, ← Nat.add_assoc, ← Nat.add_assoc]
    have ha := clsCost_le a L
    have hb := clsCost_le b L
    rw [ih (left ++ wts L) h2 _ _ (by rw [List.sum_append]; omega) (by rw [List.sum_append]; omega)]
    have key : x + clsCost a L < y + clsCost b L ↔ clsCost a L < clsCost b L ∨ (clsCost a L = clsCost b L ∧ x < y) := by
      obtain ⟨s, s1, s2⟩ := clsCost_part a L
      obtain ⟨t, t1, t2⟩ := clsCost_part b L
      rcases Nat.lt_trichotomy (clsCost a L) (clsCost b L) with hlt | heq | hgt
      · have := h1 s t s1 t1 (by omega)
        exact ⟨fun _ => .inl hlt, fun _ => by omega⟩
      · exact ⟨fun h => .inr ⟨heq, by omega⟩, fun h => by omega⟩
      · have := h1 t s t1 s1 (by omega)
        constructor
        · intro h; omega
        · rintro (h | h) <;> omega
    rw [key, PartLt]
    constructor
    · rintro (h | ⟨h3, h4 | h4⟩)
      · exact .inl (.inl h)
      · exact .inl (.inr ⟨h3, h4⟩)
      · refine .inr ⟨fun M hM => ?_, h4.2⟩
        rcases List.mem_cons.1 hM with rfl | hM
        · exact h4.1
        · exact h3 M hM
    · rintro ((h | ⟨h3, h4⟩) | ⟨h3, h4⟩)
      · exact .inl h
      · exact .inr ⟨h3, .inl h4⟩
      · exact .inr ⟨fun M hM => h3 M (List.mem_cons_of_mem _ hM), .inr ⟨h3 L (List.mem_cons_self ..), h4⟩⟩

end Gbmo
end RustSat
