import Verif.Lemmas.NodeCon
/-
C31 (connections between nodes of the totalizer database).
-/
namespace RustSat
namespace TotDb

/-- **C31.** Galois connection: a child's value reaches the rounded up reverse image of `k` if and only if the
value transmitted by the connection reaches `k`. For a limited connection, `k` is at most the largest transmitted
value. -/
theorem C31_galois (c : NodeCon) (hc : c.WF) (k v : Nat) (hk : 0 < k)
    (hlim : ∀ l, c.lenLimit = some l → k ≤ l * c.multiplier) :
    c.revMapRoundUp k ≤ v ↔ k ≤ c.map v := by
  have hm := hc.mult
  rw [NodeCon.revMapRoundUp_eq hc hk hlim, NodeCon.map_eq, ← NodeCon.up_le_iff hm, NodeCon.le_steps_iff hc]
  · exact NodeCon.up_pos hm hk
  · intro l hl; exact (NodeCon.up_le_iff hm).2 (hlim l hl)

example : (⟨0, 2, 3, 5, some 4⟩ : NodeCon).WF := ⟨by decide, by decide, by intro k h; cases h; decide⟩
example : let c : NodeCon := ⟨0, 2, 3, 5, some 4⟩
    c.revMapRoundUp 7 = 8 ∧ c.map 8 = 10 ∧ c.map 7 = 5 ∧ c.map 100 = 20 := by decide

/-- **C31.** Values above the limit of a connection are never transmitted; the rounded up reverse image of such a
value lies beyond every child value that still makes a difference. -/
theorem C31_beyond_limit (c : NodeCon) (hc : c.WF) (l k : Nat) (hl : c.lenLimit = some l)
    (hk : l * c.multiplier < k) :
    (∀ v, c.map v < k) ∧ c.revMapRoundUp k = (l + 1) * c.divisor + c.offset ∧
      c.map (c.revMapRoundUp k - 1) = c.map (c.revMapRoundUp k) := by
  have hm := hc.mult
  have hr : c.revMapRoundUp k = (l + 1) * c.divisor + c.offset := by
    unfold NodeCon.revMapRoundUp
    simp only [hl]
    rw [if_pos]
    rw [ge_iff_le, Nat.le_div_iff_mul_le hm]
    omega
  refine ⟨?_, hr, ?_⟩
  · intro v
    rw [NodeCon.map_eq]
    have := Nat.mul_le_mul_right c.multiplier (NodeCon.steps_le_limit hl v)
    omega
  · have hd := hc.div
    have hlp := hc.limit l hl
    have key : ∀ v, l * c.divisor + c.offset ≤ v → c.map v = l * c.multiplier := by
      intro v hv
      rw [NodeCon.map_eq]
      have h1 := (NodeCon.le_steps_iff hc hlp (v := v) (fun l' h' => by rw [hl] at h'; cases h'; omega)).2 hv
      have h2 := NodeCon.steps_le_limit hl v
      rw [show c.steps v = l by omega]
    rw [hr, Nat.succ_mul, key _ (by omega), key _ (by omega)]

example : let c : NodeCon := ⟨0, 2, 3, 5, some 4⟩
    c.revMapRoundUp 21 = 17 ∧ c.map 16 = 20 ∧ c.map 17 = 20 := by decide

/-- **C31.** The possible values are exactly the transmitted values, and `rev_map` gives the least child value
that is mapped to a possible value. -/
theorem C31_possible (c : NodeCon) (hc : c.WF) (k : Nat) :
    (c.isPossible k = true ↔ ∃ v, c.map v = k) ∧
    (0 < k → c.isPossible k = true → c.map (c.revMap k) = k ∧ ∀ v, c.map v = k → c.revMap k ≤ v) := by
  have hm := hc.mult
  have hposs : c.isPossible k = true ↔ k % c.multiplier = 0 ∧ ∀ l, c.lenLimit = some l → k / c.multiplier ≤ l := by
    unfold NodeCon.isPossible
    cases h : c.lenLimit <;> simp
  have main : 0 < k → c.isPossible k = true → c.map (c.revMap k) = k ∧ ∀ v, c.map v = k → c.revMap k ≤ v := by
    intro hk hp
    obtain ⟨hdvd, hlim⟩ := hposs.1 hp
    have heq : k / c.multiplier * c.multiplier = k := Nat.div_mul_cancel (Nat.dvd_of_mod_eq_zero hdvd)
    have hq : 0 < k / c.multiplier := by
      rcases Nat.eq_zero_or_pos (k / c.multiplier) with h0 | h0
      · rw [h0] at heq; omega
      · exact h0
    have hlim' : ∀ l, c.lenLimit = some l → k ≤ l * c.multiplier := fun l hl => by
      have := Nat.mul_le_mul_right c.multiplier (hlim l hl)
      omega
    have hru : c.revMapRoundUp k = c.revMap k := by
      rw [NodeCon.revMapRoundUp_eq hc hk hlim', NodeCon.revMap_eq hc hq hlim, NodeCon.up_of_dvd hm hdvd]
    refine ⟨?_, fun v hv => ?_⟩
    · rw [NodeCon.map_eq]
      conv => rhs; rw [← heq]
      congr 1
      apply Nat.le_antisymm
      · rcases Nat.lt_or_ge (k / c.multiplier) (c.steps (c.revMap k)) with hlt | hge
        · exfalso
          have hs : ∀ l, c.lenLimit = some l → k / c.multiplier + 1 ≤ l := fun l hl =>
            Nat.le_trans hlt (NodeCon.steps_le_limit hl _)
          have := (NodeCon.le_steps_iff hc (by omega) hs).1 hlt
          rw [NodeCon.revMap_eq hc hq hlim, Nat.succ_mul] at this
          have := hc.div
          omega
        · exact hge
      · rw [NodeCon.le_steps_iff hc hq hlim, NodeCon.revMap_eq hc hq hlim]
    · rw [← hru]
      exact (C31_galois c hc k v hk hlim').2 (by omega)
  refine ⟨⟨fun hp => ?_, fun ⟨v, hv⟩ => ?_⟩, main⟩
  · rcases Nat.eq_zero_or_pos k with rfl | hk
    · exact ⟨0, c.map_zero⟩
    · exact ⟨_, (main hk hp).1⟩
  · rw [hposs, ← hv, NodeCon.map_eq]
    refine ⟨Nat.mul_mod_left _ _, fun l hl => ?_⟩
    rw [Nat.mul_div_cancel _ hm]
    exact NodeCon.steps_le_limit hl v

example : let c : NodeCon := ⟨0, 2, 3, 5, some 4⟩
    c.isPossible 10 = true ∧ c.revMap 10 = 8 ∧ c.isPossible 25 = false := by decide

/-- **C31.** For a connection with weight one to a node with consecutive output values, `con_len` is the number
of positive values that the connection can transmit: these are exactly `1, …, con_len`. -/
theorem C31_con_len (db : Db) (c : NodeCon) (hc : c.WF) (hm : c.multiplier = 1) (k : Nat) :
    (0 < k ∧ k ≤ db.conLen c) ↔ ∃ v, v ≤ (db.node c.id).len ∧ c.map v = k ∧ 0 < k := by
  have hlen : db.conLen c = c.steps (db.node c.id).len := by
    unfold Db.conLen NodeCon.steps
    cases c.lenLimit <;> rfl
  have hmap : ∀ v, c.map v = c.steps v := fun v => by rw [NodeCon.map_eq, hm, Nat.mul_one]
  constructor
  · rintro ⟨hk, hle⟩
    rw [hlen] at hle
    have hlim : ∀ l, c.lenLimit = some l → k ≤ l := fun l hl => Nat.le_trans hle (NodeCon.steps_le_limit hl _)
    refine ⟨c.revMap k, ?_, ?_, hk⟩
    · rw [NodeCon.revMap_eq hc (by rw [hm, Nat.div_one]; exact hk) (by rw [hm, Nat.div_one]; exact hlim), hm,
        Nat.div_one]
      exact (NodeCon.le_steps_iff hc hk hlim).1 hle
    · refine ((C31_possible c hc k).2 hk ?_).1
      unfold NodeCon.isPossible
      cases h : c.lenLimit with
      | none => simp [hm, Nat.mod_one]
      | some l => simp [hm, Nat.mod_one, hlim l h]
  · rintro ⟨v, hv, hk, h0⟩
    refine ⟨h0, ?_⟩
    rw [← hk, hmap, hlen]
    exact c.steps_mono hv

example : let db : Db := ⟨[.unit (List.replicate 9 .none) 2 9 (NodeCon.full 0) (NodeCon.full 0)], [], none⟩
    db.conLen ⟨0, 2, 3, 1, some 4⟩ = 2 ∧ db.conLen ⟨0, 2, 1, 1, some 4⟩ = 4 := by decide

/-- Beyond the limit the Galois connection does not hold. -/
example : let c : NodeCon := NodeCon.limited 0 0 2 1
    c.revMapRoundUp 3 ≤ 3 ∧ ¬ 3 ≤ c.map 3 := by decide

end TotDb
end RustSat
